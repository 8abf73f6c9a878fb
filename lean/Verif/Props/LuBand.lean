import Verif.Props.LuParts
import Verif.Props.Grid
import Verif.Props.Ghost

/-!
# Property C203: rounding errors of the direct solver grow with the bandwidth, not with the size
-/

namespace Disa.Props

open Disa Spec Dense Num Lu

/-! ### The factors in closed form -/

section

variable {K : Type} [Zero K] [Sub K] [Mul K] [Div K]

/-- The element (r, c) of the factors after `i` steps in terms of the other factors. -/
def Closed {n : Nat} (A M : Fin n → Fin n → K) (i : Nat) : Prop := ∀ r c : Fin n,
  (c < r → c.1 < i → M r c = less (A r c) (fun k => M r k * M k c) 0 c.1 / M c c) ∧
  ((r ≤ c ∨ i ≤ c.1) → M r c = less (A r c) (fun k => M r k * M k c) 0 (min i (min r.1 c.1)))

theorem elim_fixed {n : Nat} (M : Fin n → Fin n → K) {i r c : Fin n} (h : r ≤ i ∨ c < i) : elim M i r c = M r c := by
  unfold elim
  rcases h with h | h
  · rw [if_neg (not_lt.mpr h)]
  · split
    · rw [if_neg (ne_of_lt h), if_neg (not_lt.mpr h.le)]
    · rfl

theorem closed_elim {n : Nat} {A M : Fin n → Fin n → K} (i : Fin n) (h : Closed A M i.1) : Closed A (elim M i) (i.1 + 1) := by
  have hless : ∀ (r c : Fin n) (l : Nat), l ≤ i.1 → less (A r c) (fun k => elim M i r k * elim M i k c) 0 l =
      less (A r c) (fun k => M r k * M k c) 0 l := by
    intro r c l hl
    refine less_congr fun k _ hk => ?_
    have hki : k.1 < i.1 := by omega
    rw [elim_fixed M (.inr (show k < i from hki)), elim_fixed M (.inl (show k ≤ i from hki.le))]
  intro r c
  refine ⟨fun hcr hc => ?_, fun hrc => ?_⟩
  · rw [hless r c c.1 (by omega), elim_fixed M (.inl (show c ≤ i from by show c.1 ≤ i.1; omega))]
    by_cases hci : c.1 < i.1
    · rw [elim_fixed M (.inr (show c < i from hci))]
      exact (h r c).1 hcr hci
    · obtain rfl : c = i := Fin.ext (by omega)
      have e : elim M c r c = M r c / M c c := by
        unfold elim
        rw [if_pos hcr, if_pos rfl]
      rw [e, (h r c).2 (.inr le_rfl)]
      congr 2
      have : c.1 < r.1 := hcr
      omega
  · by_cases hri : r.1 ≤ i.1
    · rw [elim_fixed M (.inl (show r ≤ i from hri))]
      have hrc' : r.1 ≤ c.1 := by
        rcases hrc with q | q
        · exact q
        · omega
      rw [show min (i.1 + 1) (min r.1 c.1) = min i.1 (min r.1 c.1) by omega, hless r c _ (by omega)]
      exact (h r c).2 (.inl hrc')
    · have hic : i.1 < c.1 := by
        rcases hrc with q | q
        · have : r.1 ≤ c.1 := q
          omega
        · omega
      have hir : i < r := by show i.1 < r.1; omega
      have e : elim M i r c = M r c - M r i / M i i * M i c := by
        unfold elim
        rw [if_pos hir, if_neg (ne_of_gt (show i < c from hic)), if_pos (show i < c from hic)]
      have e1 : elim M i r i = M r i / M i i := by
        unfold elim
        rw [if_pos hir, if_pos rfl]
      have e2 : elim M i i c = M i c := elim_fixed M (.inl le_rfl)
      rw [show min (i.1 + 1) (min r.1 c.1) = i.1 + 1 by omega]
      rw [less, dif_pos (by omega), hless r c i.1 le_rfl, e, (h r c).2 (.inr hic.le), show min i.1 (min r.1 c.1) = i.1 by omega]
      congr 1
      have : (⟨0 + i.1, by omega⟩ : Fin n) = i := Fin.ext (by simp)
      rw [this, e1, e2]

theorem factorise_closed (F : Arith K) (s s' : Lu K) {n : Nat} (A M : Fin n → Fin n → K)
    (hf : factorise F false s (mat A) = .ok (s', true)) (hM : s'.lu = mat M) (r c : Fin n) :
    (c < r → M r c = less (A r c) (fun k => M r k * M k c) 0 c.1 / M c c) ∧
    (r ≤ c → M r c = less (A r c) (fun k => M r k * M k c) 0 r.1) := by
  obtain ⟨_, h2, N, st, ok, rfl, h3⟩ := loop_inv (n := n) (body := factoriseBody F false s.tol)
    (s := (mat A, s.piv, true))
    (fun i t => ∃ (N : Fin n → Fin n → K) (st : List Nat) (ok : Bool), t = (mat N, st, ok) ∧ (ok = true → Closed A N i))
    ⟨A, _, true, rfl, fun _ r c => ⟨fun _ h => absurd h (Nat.not_lt_zero _), fun _ => by
      rw [Nat.zero_min]; rfl⟩⟩ (by
      rintro i t' hi ⟨N, st, ok, rfl, h3⟩
      cases ok with
      | false => exact ⟨_, rfl, N, st, false, rfl, by simp⟩
      | true =>
        cases hsmall : F.lt (F.abs (N ⟨i, hi⟩ ⟨i, hi⟩)) s.tol with
        | true =>
          refine ⟨(mat N, st, false), ?_, N, st, false, rfl, by simp⟩
          unfold factoriseBody
          simp only [if_true, Bool.false_eq_true, if_false, show (pure (mat N, st) : Out (List (List K) × List Nat)) = .ok (mat N, st) from rfl, Out.ok_bind, rd2_mat N hi hi, hsmall]
          rfl
        | false =>
          refine ⟨(mat (elim N ⟨i, hi⟩), st, true), ?_, _, st, true, rfl, fun _ => closed_elim ⟨i, hi⟩ (h3 rfl)⟩
          unfold factoriseBody
          simp only [if_true, Bool.false_eq_true, if_false, show (pure (mat N, st) : Out (List (List K) × List Nat)) = .ok (mat N, st) from rfl, Out.ok_bind, rd2_mat N hi hi, hsmall, mat_length]
          have := eliminate_ok N ⟨i, hi⟩
          simp only at this
          rw [this]
          rfl)
  have hf' : factorise F false s (mat A) = .ok ({ s with factorised := ok, lu := mat N, piv := st }, ok) := by
    unfold factorise
    rw [mat_length]
    simp only [Bool.false_eq_true, if_false]
    rw [h2]
    rfl
  rw [hf] at hf'
  simp only [Out.ok.injEq, Prod.mk.injEq] at hf'
  obtain ⟨rfl, rfl⟩ := hf'
  obtain rfl := mat_inj.mp hM
  have h := h3 rfl r c
  refine ⟨fun hc => h.1 hc c.2, fun hc => ?_⟩
  have := h.2 (.inl hc)
  have hrc : r.1 ≤ c.1 := hc
  rwa [show min n (min r.1 c.1) = r.1 by have := r.2; omega] at this

end

/-! ### Zeros outside of the band -/

/-- No elements farther than `β` from the diagonal. -/
def Band {n : Nat} (β : Nat) (A : Fin n → Fin n → ℚ) : Prop := ∀ r c : Fin n, c.1 + β < r.1 ∨ r.1 + β < c.1 → A r c = 0

section

variable {n : Nat}

/-- Leading terms that are zero. -/
theorem less_lead {v : Num binary64} (hv : IsDouble v) {f : Fin n → Num binary64} {a m : Nat} (h0 : ∀ c : Fin n, c.1 < a → f c = fin 0) :
    less v f 0 (a + m) = less v f a m := by
  have hz : ∀ l, l ≤ a → less v f 0 l = v := by
    intro l
    induction l with
    | zero => exact fun _ => rfl
    | succ l ih =>
      intro hl
      unfold less
      rw [ih (by omega)]
      split
      · rw [h0 _ (by simp; omega), hv.less_zero]
      · rfl
  induction m with
  | zero => exact hz a le_rfl
  | succ m ih =>
    rw [← Nat.add_assoc, less, ih]
    conv_rhs => rw [less]
    simp only [Nat.zero_add]

theorem less_double {v : Num binary64} (hv : IsDouble v) {f : Fin n → Num binary64} {a m : Nat} (h : IsFin (less v f a m)) :
    IsDouble (less v f a m) := by
  induction m with
  | zero => exact hv
  | succ m ih =>
    unfold less at h ⊢
    split at h
    · rename_i hm
      rw [dif_pos hm]
      exact double_sub h
    · rename_i hm
      rw [dif_neg hm]
      exact ih h

theorem less_finite {v : Num binary64} {f : Fin n → Num binary64} {a m : Nat} (h : IsFin (less v f a m)) {l : Nat} (hl : l ≤ m) :
    IsFin (less v f a l) := by
  induction m with
  | zero =>
    obtain rfl : l = 0 := by omega
    exact h
  | succ m ih =>
    by_cases hlm : l = m + 1
    · rwa [hlm]
    · refine ih ?_ (by omega)
      unfold less at h
      split at h
      · obtain ⟨q, hq⟩ := h
        obtain ⟨x, _, e1, -⟩ := sub_fin hq
        exact ⟨x, e1⟩
      · exact h

/-- Last terms that are zero. -/
theorem less_last {v : Num binary64} (hv : IsDouble v) {f : Fin n → Num binary64} {a m l : Nat} (hl : l ≤ m)
    (h0 : ∀ c : Fin n, a + l ≤ c.1 → f c = fin 0) (h : IsFin (less v f a m)) : less v f a m = less v f a l := by
  induction m with
  | zero =>
    obtain rfl : l = 0 := by omega
    rfl
  | succ m ih =>
    by_cases hlm : l = m + 1
    · rw [hlm]
    · have hm := less_finite h (l := m) (by omega)
      rw [less]
      split
      · rw [h0 _ (by simp; omega), (less_double hv hm).less_zero]
        exact ih (by omega) hm
      · exact ih (by omega) hm

theorem psum_lead {f : Fin n → ℚ} {a m : Nat} (h0 : ∀ c : Fin n, c.1 < a → f c = 0) : Lu.psum f 0 (a + m) = Lu.psum f a m := by
  unfold Lu.psum
  refine Finset.sum_congr rfl fun c _ => ?_
  by_cases hc : c.1 < a
  · rw [h0 c hc]
    simp
  · congr 1
    simp only [eq_iff_iff]
    omega

theorem psum_last {f : Fin n → ℚ} {a m l : Nat} (hl : l ≤ m) (h0 : ∀ c : Fin n, a + l ≤ c.1 → f c = 0) : Lu.psum f a m = Lu.psum f a l := by
  unfold Lu.psum
  refine Finset.sum_congr rfl fun c _ => ?_
  by_cases hc : a + l ≤ c.1
  · rw [h0 c hc]
    simp
  · congr 1
    simp only [eq_iff_iff]
    omega

/-- The factors have no elements outside of the band. -/
theorem band_factors {β : Nat} {B M : Fin n → Fin n → ℚ} (hB : Band β B)
    (hd : ∀ k, M k k ≠ 0)
    (hc : ∀ r c : Fin n, (c < r → (fin (M r c) : Num binary64) = less (fin (B r c)) (fun k => fin (M r k) * fin (M k c)) 0 c.1 / fin (M c c)) ∧
      (r ≤ c → (fin (M r c) : Num binary64) = less (fin (B r c)) (fun k => fin (M r k) * fin (M k c)) 0 r.1)) : Band β M := by
  have hz : ∀ (f : Fin n → Num binary64) (m : Nat), (∀ k : Fin n, k.1 < m → f k = fin 0) → less (fin 0) f 0 m = fin 0 := by
    intro f m hf
    have := less_lead (f := f) (a := m) (m := 0) double_zero hf
    exact this
  have key : ∀ (l : Nat) (r c : Fin n), min r.1 c.1 = l → c.1 + β < r.1 ∨ r.1 + β < c.1 → M r c = 0 := by
    intro l
    induction l using Nat.strong_induction_on with
    | _ l ih =>
      intro r c hl h
      rcases h with h | h
      · have h1 := (hc r c).1 (show c.1 < r.1 by omega)
        rw [hB r c (.inl h), hz _ _ fun k hk => by
          rw [ih k.1 (by omega) r k (by omega) (.inl (by omega))]
          exact fin_zero_times ⟨_, rfl⟩, zero_div64 (hd c)] at h1
        exact fin_inj.mp h1
      · have h1 := (hc r c).2 (show r.1 ≤ c.1 by omega)
        rw [hB r c (.inr h), hz _ _ fun k hk => by
          rw [ih k.1 (by omega) k c (by omega) (.inr (by omega))]
          exact times_fin_zero ⟨_, rfl⟩] at h1
        exact fin_inj.mp h1
  exact fun r c h => key _ r c rfl h

/-! ### The product of the factors -/

theorem product_upper (M : Fin n → Fin n → ℚ) {r c : Fin n} (h : r ≤ c) :
    ∑ k, lowerPart M r k * upperPart M k c = Lu.psum (fun k => M r k * M k c) 0 r.1 + M r c := by
  rw [sum_lower]
  congr 1
  · unfold Lu.psum
    refine Finset.sum_congr rfl fun k _ => ?_
    split
    · rename_i hk
      have : k ≤ c := by
        have : k.1 < r.1 := by omega
        have : r.1 ≤ c.1 := h
        show k.1 ≤ c.1
        omega
      simp only [upperPart, if_pos this]
    · rfl
  · simp only [upperPart, if_pos h]

theorem product_lower (M : Fin n → Fin n → ℚ) {r c : Fin n} (h : c < r) :
    ∑ k, lowerPart M r k * upperPart M k c = Lu.psum (fun k => M r k * M k c) 0 c.1 + M r c * M c c := by
  have h' : c.1 < r.1 := h
  have hr : upperPart M r c = 0 := by simp only [upperPart, if_neg (not_le.mpr h)]
  rw [sum_lower, hr, add_zero, psum_last (l := c.1 + 1) (by omega) fun k hk => by
    have : ¬ k ≤ c := fun q => by
      have : k.1 ≤ c.1 := q
      omega
    simp only [upperPart, if_neg this, mul_zero]]
  rw [Lu.psum_succ _ _ _ (by omega)]
  have e : (⟨0 + c.1, by omega⟩ : Fin n) = c := Fin.ext (by simp)
  rw [e]
  congr 1
  · unfold Lu.psum
    refine Finset.sum_congr rfl fun k _ => ?_
    split
    · rename_i hk
      have : k ≤ c := by
        show k.1 ≤ c.1
        omega
      simp only [upperPart, if_pos this]
    · rfl
  · simp only [upperPart, le_refl, if_true]

theorem product_abs (M : Fin n → Fin n → ℚ) (r c : Fin n) :
    ∑ k, |lowerPart M r k| * |upperPart M k c| = ∑ k, lowerPart (fun r c => |M r c|) r k * upperPart (fun r c => |M r c|) k c := by
  refine Finset.sum_congr rfl fun k _ => ?_
  unfold lowerPart upperPart
  split
  · split <;> simp
  · split
    · split <;> simp
    · simp

end

/-! ### The property -/

/-- Relative rounding error of doubles. -/
abbrev u64 : ℚ := 1 / 2 ^ 53

/-- Absolute rounding error of doubles. -/
abbrev η64 : ℚ := 1 / 2 ^ 1075

theorem gain_mono {m n : Nat} (h : m ≤ n) : gain u64 ^ m ≤ gain u64 ^ n :=
  pow_le_pow_right₀ (gain_spec (u := u64) (by norm_num) (by norm_num)).1 h

theorem widen {u η : ℚ} (hu : 0 ≤ u) (h1 : u < 1) (hη : 0 ≤ η) {m k : Nat} {T a v : ℚ} (hm : m + 1 ≤ k) (hT : 0 ≤ T) (ha : 0 ≤ a)
    (hv : v ≤ (gain u ^ (m + 1) - 1) * T + (small u η m + gain u ^ (m + 1) * (η * a))) :
    v ≤ relError u k * T + absError u η k * (1 + a) := by
  have t1 := mul_le_mul_of_nonneg_right (sub_le_sub_right (pow_le_pow_right₀ (gain_spec hu h1).1 hm) 1) hT
  have t2 := small_mono hu h1 hη (show m ≤ k by omega)
  have t3 := mul_le_mul_of_nonneg_right (pow_le_small hu h1 hη hm) ha
  rw [relError_eq, absError_eq]
  linarith

/-- C203: without pivoting, the factors of a matrix of doubles with band width `β` have no elements outside of the band, and the errors
are those of `β + 1` operations instead of `n`. -/
theorem c203_band (s s' : Lu (Num binary64)) {t : ℚ} (ht : 0 < t) (hs : s.tol = fin t) {n β : Nat} (B : Fin n → Fin n → ℚ)
    (hB : ∀ r c, binary64 (B r c) = .fin (B r c)) (hβ : Band β B)
    (hf : factorise (Num.arith binary64) false s (mat fun r c => (fin (B r c) : Num binary64)) = .ok (s', true))
    (M : Fin n → Fin n → ℚ) (hM : s'.lu = mat fun r c => (fin (M r c) : Num binary64)) :
    Band β M ∧
    (∀ r c, |B r c - ∑ k, lowerPart M r k * upperPart M k c| ≤
      relError u64 (β + 1) * (∑ k, |lowerPart M r k| * |upperPart M k c|) + absError u64 η64 (β + 1) * (1 + |M c c|)) ∧
    ∀ (d x : Fin n → ℚ) (x0 : List (Num binary64)), (∀ r, binary64 (d r) = .fin (d r)) →
      Lu.solve false s' x0 (some (vec fun r => (fin (d r) : Num binary64))) =
        .ok (vec (fun r => (fin (x r) : Num binary64)), true, 1) →
      ∀ r, |d r - ∑ c, B r c * x c| ≤
        (3 * relError u64 (β + 1) + relError u64 (β + 1) ^ 2) * (∑ k, |lowerPart M r k| * ∑ c, |upperPart M k c| * |x c|) +
        absError u64 η64 (β + 1) * (1 + (1 + relError u64 (β + 1)) * (∑ k, |lowerPart M r k| * (1 + |M k k|)) +
          ∑ c, (1 + |M c c|) * |x c|) := by
  have h := rounds_binary64
  have h1 : u64 < 1 := by norm_num
  have hu : (0 : ℚ) ≤ u64 := by norm_num
  have hη : (0 : ℚ) ≤ η64 := by positivity
  have hd0 : ∀ k, M k k ≠ 0 := by
    obtain ⟨p, M', st, ok, e1, e2⟩ := factorise_rounded h h1 false s ht hs fun r c => (fin (B r c) : Num binary64)
    rw [hf] at e1
    simp only [Out.ok.injEq, Prod.mk.injEq] at e1
    obtain ⟨rfl, rfl⟩ := e1
    obtain rfl : M' = fun r c => fin (M r c) := mat_inj.mp hM
    intro k
    have := (e2 rfl).diag k k.2
    rw [hs] at this
    exact ne_zero_of_accepted ht this rfl
  have hc := factorise_closed (Num.arith binary64) s s' _ _ hf hM
  have hBM : Band β M := band_factors hβ hd0 hc
  have hBd : ∀ r c, IsDouble (fin (B r c)) := fun r c => ⟨_, rfl, hB r c⟩
  have hwide : ∀ {m : Nat} {T a v : ℚ}, m ≤ β + 1 → 0 ≤ T → v ≤ (gain u64 ^ m - 1) * T + small u64 η64 m →
      v ≤ relError u64 (β + 1) * T + absError u64 η64 (β + 1) := by
    intro m T a v hm hT hv
    rw [relError_eq, absError_eq]
    have t1 := mul_le_mul_of_nonneg_right (sub_le_sub_right (gain_mono hm) 1) hT
    have t2 := small_mono hu h1 hη hm
    linarith
  have hprod : ∀ r c, |B r c - ∑ k, lowerPart M r k * upperPart M k c| ≤
      relError u64 (β + 1) * (∑ k, |lowerPart M r k| * |upperPart M k c|) + absError u64 η64 (β + 1) * (1 + |M c c|) := by
    intro r c
    rw [product_abs]
    have hcc := abs_nonneg (M c c)
    have ha0 : 0 ≤ absError u64 η64 (β + 1) := by rw [absError_eq]; exact small_nonneg hu h1 hη _
    by_cases hrc : r ≤ c
    · have hrc' : r.1 ≤ c.1 := hrc
      have e := (hc r c).2 hrc
      have hlead : ∀ k : Fin n, k.1 < r.1 - β → M r k = 0 := fun k hk => hBM r k (.inl (by omega))
      rw [show r.1 = (r.1 - β) + (r.1 - (r.1 - β)) by omega, less_lead (hBd r c) fun k hk => by
        rw [hlead k hk]; exact fin_zero_times ⟨_, rfl⟩] at e
      obtain ⟨-, -, i3⟩ := less_error h h1 (fin (B r c) : Num binary64) (fun k => fin (M r k)) (fun k => fin (M k c)) (r.1 - β)
        (r.1 - (r.1 - β)) (by have := r.2; omega) _ e.symm
      simp only [Num.val_fin] at i3
      rw [product_upper M hrc, product_upper _ hrc, ← sub_sub]
      rw [← psum_lead (m := r.1 - (r.1 - β)) fun k hk => by rw [hlead k hk, zero_mul],
        ← psum_lead (m := r.1 - (r.1 - β)) fun k hk => by rw [hlead k hk, zero_mul, abs_zero],
        show (r.1 - β) + (r.1 - (r.1 - β)) = r.1 by omega] at i3
      simp only [abs_mul] at i3 ⊢
      have hT : 0 ≤ Lu.psum (fun k => |M r k| * |M k c|) 0 r.1 + |M r c| :=
        add_nonneg (psum_nonneg (fun k => mul_nonneg (abs_nonneg _) (abs_nonneg _)) _ _) (abs_nonneg _)
      have := hwide (a := 0) (by omega) hT i3
      nlinarith
    · have hcr : c < r := not_le.mp hrc
      have hcr' : c.1 < r.1 := hcr
      have e := (hc r c).1 hcr
      obtain ⟨q, f1, f2⟩ := div_fin (hd0 c) e.symm
      obtain ⟨a, ha, ha'⟩ : ∃ a, a = min c.1 (r.1 - β) ∧ a ≤ c.1 := ⟨_, rfl, by omega⟩
      have hlead : ∀ k : Fin n, k.1 < a → M r k = 0 := fun k hk => hBM r k (.inl (by omega))
      rw [show c.1 = a + (c.1 - a) by omega, less_lead (hBd r c) fun k hk => by
        rw [hlead k hk]; exact fin_zero_times ⟨_, rfl⟩] at f1
      obtain ⟨-, -, i3⟩ := less_error h h1 (fin (B r c) : Num binary64) (fun k => fin (M r k)) (fun k => fin (M k c)) a
        (c.1 - a) (by have := c.2; omega) _ f1
      simp only [Num.val_fin] at i3
      rw [← psum_lead (m := c.1 - a) fun k hk => by rw [hlead k hk, zero_mul],
        ← psum_lead (m := c.1 - a) fun k hk => by rw [hlead k hk, zero_mul, abs_zero],
        show a + (c.1 - a) = c.1 by omega] at i3
      have i4 := quot_error h h1 (c.1 - a) (hd0 c) f2 i3 (psum_nonneg (fun c => abs_nonneg _) _ _)
      rw [product_lower M hcr, product_lower _ hcr]
      simp only [abs_mul] at i4 ⊢
      have hT : 0 ≤ Lu.psum (fun k => |M r k| * |M k c|) 0 c.1 + |M r c| * |M c c| :=
        add_nonneg (psum_nonneg (fun k => mul_nonneg (abs_nonneg _) (abs_nonneg _)) _ _) (mul_nonneg (abs_nonneg _) (abs_nonneg _))
      exact widen hu h1 hη (show c.1 - a + 1 ≤ β + 1 by omega) hT hcc i4
  refine ⟨hBM, hprod, ?_⟩
  intro d x x0 hdd hx
  obtain ⟨p, -, hp, hsweep⟩ := solve_sweeps false s s' ht hs _ hf _ hM
  obtain ⟨y, x', e3, hy, hx'⟩ := hsweep (fun r => (fin (d r) : Num binary64)) x0
  obtain rfl := hp rfl
  rw [e3] at hx
  simp only [Out.ok.injEq, Prod.mk.injEq, and_true] at hx
  obtain rfl := vec_inj.mp hx
  simp only [Equiv.Perm.coe_one, id_eq] at hy
  have hyd : ∀ r, IsDouble (y r) := by
    intro r
    obtain ⟨q, f1, -⟩ := div_fin (hd0 r) (hx' r).symm
    have hfin : IsFin (y r) := less_finite (l := 0) ⟨q, f1⟩ (Nat.zero_le _)
    rw [hy r] at hfin ⊢
    exact less_double ⟨_, rfl, hdd r⟩ hfin
  have hyv : ∀ r, y r = fin (Num.val (y r)) := fun r => by
    obtain ⟨q, hq⟩ := (hyd r).isFin
    rw [hq]
    rfl
  have hback : ∀ r, |Num.val (y r) - ∑ c, upperPart M r c * x c| ≤
      relError u64 (β + 1) * (∑ c, |upperPart M r c| * |x c|) + absError u64 η64 (β + 1) * (1 + |M r r|) := by
    intro r
    obtain ⟨q, f1, f2⟩ := div_fin (hd0 r) (hx' r).symm
    obtain ⟨l, hl, hl'⟩ : ∃ l, l = min β (n - (r.1 + 1)) ∧ l ≤ n - (r.1 + 1) := ⟨_, rfl, by omega⟩
    have hlast : ∀ c : Fin n, r.1 + 1 + l ≤ c.1 → M r c = 0 := fun c hc' => hBM r c (.inr (by have := c.2; omega))
    have f1' := f1
    rw [less_last (hyd r) hl' (fun c hc' => by rw [hlast c hc']; exact fin_zero_times ⟨_, rfl⟩) ⟨q, f1⟩] at f1'
    obtain ⟨-, -, i3⟩ := less_error h h1 (y r) (fun c => (fin (M r c) : Num binary64)) (fun c => fin (x c)) (r.1 + 1) l
      (by have := r.2; omega) q f1'
    simp only [Num.val_fin] at i3
    have i4 := quot_error h h1 l (hd0 r) f2 i3 (psum_nonneg (fun c => abs_nonneg _) _ _)
    rw [sum_upper, mul_comm (M r r), psum_last hl' fun c hc' => by rw [hlast c hc', zero_mul]]
    have q2 : ∑ c, |upperPart M r c| * |x c| = Lu.psum (fun c => |M r c * x c|) (r.1 + 1) l + |x r * M r r| := by
      have := sum_upper (fun r c => |M r c|) (fun c => |x c|) r
      rw [psum_last hl' fun c hc' => by rw [hlast c hc', abs_zero, zero_mul]] at this
      rw [abs_mul, mul_comm |x r|]
      refine Eq.trans ?_ (this.trans ?_)
      · refine Finset.sum_congr rfl fun c _ => ?_
        unfold upperPart
        split
        · rfl
        · simp
      · simp only [abs_mul]
    rw [q2]
    have hT : 0 ≤ Lu.psum (fun c => |M r c * x c|) (r.1 + 1) l + |x r * M r r| :=
      add_nonneg (psum_nonneg (fun c => abs_nonneg _) _ _) (abs_nonneg _)
    exact widen hu h1 hη (show l + 1 ≤ β + 1 by omega) hT (abs_nonneg _) i4
  have hfor : ∀ r, |d r - ∑ k, lowerPart M r k * Num.val (y k)| ≤
      relError u64 (β + 1) * (∑ k, |lowerPart M r k| * |Num.val (y k)|) + absError u64 η64 (β + 1) := by
    intro r
    have hlead : ∀ k : Fin n, k.1 < r.1 - β → M r k = 0 := fun k hk => hBM r k (.inl (by omega))
    have e := (hy r).symm.trans (hyv r)
    rw [show r.1 = (r.1 - β) + (r.1 - (r.1 - β)) by omega, less_lead ⟨_, rfl, hdd r⟩ fun k hk => by
      rw [hlead k hk]; exact fin_zero_times (hyd k).isFin] at e
    obtain ⟨-, -, i3⟩ := less_error h h1 (fin (d r) : Num binary64) (fun c => (fin (M r c) : Num binary64)) (fun c => y c) (r.1 - β)
      (r.1 - (r.1 - β)) (by have := r.2; omega) _ e
    simp only [Num.val_fin] at i3
    rw [sum_lower, ← sub_sub]
    have q2 : ∑ k, |lowerPart M r k| * |Num.val (y k)| = Lu.psum (fun c => |M r c * Num.val (y c)|) 0 r.1 + |Num.val (y r)| := by
      have := sum_lower (fun r c => |M r c|) (fun c => |Num.val (y c)|) r
      refine Eq.trans ?_ (this.trans ?_)
      · refine Finset.sum_congr rfl fun c _ => ?_
        unfold lowerPart
        split
        · rfl
        · split <;> simp
      · simp only [abs_mul]
    rw [q2]
    rw [← psum_lead (m := r.1 - (r.1 - β)) fun k hk => by rw [hlead k hk, zero_mul],
      ← psum_lead (m := r.1 - (r.1 - β)) fun k hk => by rw [hlead k hk, zero_mul, abs_zero],
      show (r.1 - β) + (r.1 - (r.1 - β)) = r.1 by omega] at i3
    have hT : 0 ≤ Lu.psum (fun c => |M r c * Num.val (y c)|) 0 r.1 + |Num.val (y r)| :=
      add_nonneg (psum_nonneg (fun c => abs_nonneg _) _ _) (abs_nonneg _)
    exact hwide (a := 0) (by omega) hT i3
  intro r
  have hε : 0 ≤ relError u64 (β + 1) := by
    rw [relError_eq]
    have : 1 ≤ gain u64 ^ (β + 1) := one_le_pow₀ (gain_spec (u := u64) (by norm_num) (by norm_num)).1
    linarith
  have := combine (B := B) (L := lowerPart M) (U := upperPart M) (b := d) (x := x)
    (y := fun k => Num.val (y k)) hε (fun r c => by rw [upper_diag]; exact hprod r c) hfor
    (fun k => by rw [upper_diag]; exact hback k) r
  simpa only [upper_diag] using this

/-- C203: the residual of a finite solution, with `β + 1` in the place of the number of unknowns. -/
theorem c203_residual (s s' : Lu (Num binary64)) {t : ℚ} (ht : 0 < t) (hs : s.tol = fin t) {n β : Nat} (hb : β < 2 ^ 52)
    (B : Fin n → Fin n → ℚ) (hB : ∀ r c, binary64 (B r c) = .fin (B r c)) (hβ : Band β B)
    (hf : factorise (Num.arith binary64) false s (mat fun r c => (fin (B r c) : Num binary64)) = .ok (s', true))
    (M : Fin n → Fin n → ℚ) (hM : s'.lu = mat fun r c => (fin (M r c) : Num binary64)) (d x : Fin n → ℚ) (x0 : List (Num binary64))
    (hd : ∀ r, binary64 (d r) = .fin (d r))
    (hx : Lu.solve false s' x0 (some (vec fun r => (fin (d r) : Num binary64))) =
      .ok (vec (fun r => (fin (x r) : Num binary64)), true, 1)) (r : Fin n) :
    |d r - ∑ c, B r c * x c| ≤ ((β + 1 : Nat) : ℚ) / 2 ^ 50 * (∑ k, |lowerPart M r k| * ∑ c, |upperPart M k c| * |x c|) +
      6 * ((β + 1 : Nat) : ℚ) / 2 ^ 1075 * (1 + 2 * (∑ k, |lowerPart M r k| * (1 + |M k k|)) + ∑ c, (1 + |M c c|) * |x c|) := by
  refine ((c203_band s s' ht hs B hB hβ hf M hM).2.2 d x x0 hd hx r).trans ?_
  have hn : β + 1 ≤ 2 ^ 52 := hb
  generalize β + 1 = m at hn ⊢
  have hn' : (m : ℚ) ≤ 2 ^ 52 := by exact_mod_cast hn
  have e1 := c102_relError hn
  have e0 : 0 ≤ relError (1 / 2 ^ 53) m := by
    have : (1 : ℚ) ≤ (1 / (1 - 1 / 2 ^ 53)) ^ m := one_le_pow₀ (by norm_num)
    unfold relError
    linarith
  have e2 : relError (1 / 2 ^ 53) m ≤ 1 := by
    refine e1.trans ?_
    rw [div_le_one (by positivity)]
    exact hn'
  have e3 := c102_absError hn
  have g1 : 3 * relError (1 / 2 ^ 53) m + relError (1 / 2 ^ 53) m ^ 2 ≤ m / 2 ^ 50 := by
    have : relError (1 / 2 ^ 53) m ^ 2 ≤ relError (1 / 2 ^ 53) m := by nlinarith
    have q : (m : ℚ) / 2 ^ 50 = 4 * (m / 2 ^ 52) := by ring
    rw [q]
    linarith
  have g2 : 1 + relError (1 / 2 ^ 53) m ≤ 2 := by linarith
  have w1 : 0 ≤ ∑ k, |lowerPart M r k| * ∑ c, |upperPart M k c| * |x c| :=
    Finset.sum_nonneg fun k _ => mul_nonneg (abs_nonneg _) (Finset.sum_nonneg fun c _ => mul_nonneg (abs_nonneg _) (abs_nonneg _))
  have w2 : 0 ≤ ∑ k, |lowerPart M r k| * (1 + |M k k|) :=
    Finset.sum_nonneg fun k _ => mul_nonneg (abs_nonneg _) (add_nonneg zero_le_one (abs_nonneg _))
  have w3 : 0 ≤ ∑ c, (1 + |M c c|) * |x c| :=
    Finset.sum_nonneg fun k _ => mul_nonneg (add_nonneg zero_le_one (abs_nonneg _)) (abs_nonneg _)
  have w4 : (0 : ℚ) ≤ 6 * m / 2 ^ 1075 := by positivity
  refine add_le_add (mul_le_mul_of_nonneg_right g1 w1) ?_
  refine mul_le_mul e3 (by gcongr) ?_ w4
  exact add_nonneg (add_nonneg zero_le_one (mul_nonneg (add_nonneg zero_le_one e0) w2)) w3

/-- C203: the matrix of a graph has the bandwidth of the graph. -/
theorem along_band {g : Graph} (hg : Spec.Reachable false g) {β n : Nat} (hβ : ∀ a b, Adj g a b → b ≤ a + β) {B : Fin n → Fin n → ℚ}
    (hA : Along g B) : Band β B := by
  intro r c hrc
  refine hA r c (by rintro rfl; omega) fun h => ?_
  have h1 := hβ _ _ h
  have h2 := hβ _ _ ((c02_symmetric g hg _ _).mp h)
  omega

/-- C203: a grid of n by n vertices in any numbering, reordered by `cuthill_mckee_reverse`: the residual of a system with n * n unknowns on
the grid is that of `n + 1` operations. -/
theorem c203_grid (n : Nat) (h2 : 2 ≤ n) (hn : n * n < sizeMax) (grid g : Graph)
    (hgrid : Graph.createStructured false n = .ok grid) (p : List Nat) (hp : p.Perm (List.range (n * n)))
    (hg : grid.reorder p = .ok (g, grid)) (sort : List (Nat × Nat) → List (Nat × Nat)) (hsort : Spec.DegreeSort sort) :
    ∃ q g', g.cuthillMckeeReverse sort sizeMax = .ok q ∧ g.reorder q = .ok (g', g) ∧
    ∀ (B : Fin (n * n) → Fin (n * n) → ℚ), (∀ r c, binary64 (B r c) = .fin (B r c)) → Along g' B →
    ∀ (s s' : Lu (Num binary64)) {t : ℚ}, 0 < t → s.tol = fin t →
    factorise (Num.arith binary64) false s (mat fun r c => (fin (B r c) : Num binary64)) = .ok (s', true) →
    ∀ M : Fin (n * n) → Fin (n * n) → ℚ, s'.lu = mat (fun r c => (fin (M r c) : Num binary64)) →
    ∀ (d x : Fin (n * n) → ℚ) (x0 : List (Num binary64)), (∀ r, binary64 (d r) = .fin (d r)) →
    Lu.solve false s' x0 (some (vec fun r => (fin (d r) : Num binary64))) =
      .ok (vec (fun r => (fin (x r) : Num binary64)), true, 1) →
    ∀ r, |d r - ∑ c, B r c * x c| ≤ ((n + 1 : Nat) : ℚ) / 2 ^ 50 * (∑ k, |lowerPart M r k| * ∑ c, |upperPart M k c| * |x c|) +
      6 * ((n + 1 : Nat) : ℚ) / 2 ^ 1075 * (1 + 2 * (∑ k, |lowerPart M r k| * (1 + |M k k|)) + ∑ c, (1 + |M c c|) * |x c|) := by
  obtain ⟨q, q', g', g'', h3, -, -, h6, h7, h8⟩ := c166_default n h2 hn grid g hgrid p hp hg sort hsort
  have hgr := gridBy_of h2 hn hgrid hp hg
  obtain ⟨q1, k1, k2, -⟩ := (c20_reverse sort hsort g hgr.reach sizeMax).1 q h3
  obtain rfl : q1 = q' := Out.ok.inj (k1.symm.trans h6)
  have hr : Spec.Reachable false g'' := by
    refine Graph.Reachable.step hgr.reach (op := .reorder q1) ?_ (by simp [Spec.step, h7])
    show q1.Perm (List.range q1.length)
    rwa [k2.length_eq, List.length_range]
  have hlt : n < 2 ^ 52 := by
    by_contra hc
    have : 2 ^ 52 * 2 ^ 52 ≤ n * n := Nat.mul_le_mul (by omega) (by omega)
    have e : sizeMax = 2 ^ 64 - 1 := rfl
    omega
  exact ⟨q1, g'', h6, h7, fun B hB hA s s' t ht hs hf M hM d x x0 hd hx r =>
    c203_residual s s' ht hs hlt B hB (along_band hr h8 hA) hf M hM d x x0 hd hx r⟩

/-- Factors of the example below. -/
def bandFactors (r c : Fin 3) : ℚ :=
  ([[3, 1, 0], [6004799503160661 / 18014398509481984, 6004799503160661 / 2251799813685248, 1], [0, 3 / 8, 21 / 8]].getD r.1 []).getD c.1 0

/-- A matrix of bandwidth one whose factors and solution are rounded. -/
example : ∃ s', factorise (Num.arith binary64) false freshDouble
      (mat fun r c : Fin 3 => (fin (([[3, 1, 0], [1, 3, 1], [0, 1, 3]].getD r.1 []).getD c.1 0) : Num binary64)) = .ok (s', true) ∧
    s'.lu = mat (fun r c => (fin (bandFactors r c) : Num binary64)) ∧
    Lu.solve false s' [fin 0, fin 0, fin 0] (some [fin 1, fin 0, fin 0]) =
      .ok ([fin (857828500451523 / 2251799813685248), fin (-2573485501354569 / 18014398509481984),
        fin (857828500451523 / 18014398509481984)], true, 1) :=
  ⟨⟨true, freshDouble.tol, mat (fun r c => (fin (bandFactors r c) : Num binary64)), []⟩, by decide +kernel, rfl, by decide +kernel⟩

example : Band 1 (fun r c : Fin 3 => ([[3, 1, 0], [1, 3, 1], [0, 1, 3]].getD r.1 []).getD c.1 0) := by
  unfold Band
  decide +kernel

end Disa.Props
