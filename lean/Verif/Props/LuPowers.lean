import Verif.Props.LuBand
import Verif.Props.ScaledFloat
import Verif.Props.IntsScalar

/-!
# Property C206: equations times powers of two in the direct solver
-/

namespace Disa.Props

open Disa Spec Dense Num Lu

/-! ### Factors that satisfy their equations are found -/

section closed

variable {n : Nat} (A M : Fin n → Fin n → Num binary64)

/-- The matrix after `i` steps, when its factors are `M`. -/
def partWay (i : Nat) (r c : Fin n) : Num binary64 :=
  if c < r ∧ c.1 < i then M r c else less (A r c) (fun k => M r k * M k c) 0 (min i r.1)

variable {A M}

theorem partWay_step (hl : ∀ r c, c < r → M r c = less (A r c) (fun k => M r k * M k c) 0 c.1 / M c c)
    (hu : ∀ r c, r ≤ c → M r c = less (A r c) (fun k => M r k * M k c) 0 r.1) (i : Fin n) :
    elim (partWay A M i.1) i = partWay A M (i.1 + 1) := by
  funext r c
  have row : ∀ c, i ≤ c → partWay A M i.1 i c = M i c := fun c hc => by
    unfold partWay
    rw [if_neg (fun h => absurd h.1 (not_lt.mpr hc)), Nat.min_self, hu i c hc]
  by_cases hr : i < r
  · have hr' : i.1 < r.1 := hr
    have col : partWay A M i.1 r i / partWay A M i.1 i i = M r i := by
      rw [row i le_rfl, hl r i hr]
      unfold partWay
      rw [if_neg (by simp), Nat.min_eq_left hr'.le]
    rcases lt_trichotomy c i with hc | rfl | hc
    · have hc' : c.1 < i.1 := hc
      rw [elim_same _ (.inr hc)]
      unfold partWay
      rw [if_pos ⟨show c.1 < r.1 by omega, hc'⟩, if_pos ⟨show c.1 < r.1 by omega, by omega⟩]
    · rw [elim_at _ _ hr, col]
      unfold partWay
      rw [if_pos ⟨hr, by omega⟩]
    · have hc' : i.1 < c.1 := hc
      rw [elim_past _ i hr hc, col, row c hc.le]
      unfold partWay
      rw [if_neg (by omega), if_neg (by omega), Nat.min_eq_left hr'.le, Nat.min_eq_left (Nat.succ_le_of_lt hr')]
      rw [less, dif_pos (by omega)]
      have : (⟨0 + i.1, by omega⟩ : Fin n) = i := Fin.ext (by simp)
      rw [this]
  · have hr' : r.1 ≤ i.1 := not_lt.mp hr
    rw [elim_same _ (.inl (not_lt.mp hr))]
    unfold partWay
    have : (c < r ∧ c.1 < i.1) ↔ (c < r ∧ c.1 < i.1 + 1) := by
      constructor
      · rintro ⟨a, b⟩; exact ⟨a, by omega⟩
      · rintro ⟨a, b⟩; exact ⟨a, by have : c.1 < r.1 := a; omega⟩
    rw [Nat.min_eq_right hr', Nat.min_eq_right (by omega : r.1 ≤ i.1 + 1)]
    simp only [this]

theorem factorise_of_closed (s : Lu (Num binary64)) (hl : ∀ r c, c < r → M r c = less (A r c) (fun k => M r k * M k c) 0 c.1 / M c c)
    (hu : ∀ r c, r ≤ c → M r c = less (A r c) (fun k => M r k * M k c) 0 r.1)
    (ha : ∀ i, (Num.arith binary64).lt ((Num.arith binary64).abs (M i i)) s.tol = false) :
    factorise (Num.arith binary64) false s (mat A) = .ok (⟨true, s.tol, mat M, s.piv⟩, true) := by
  obtain ⟨t', h2, rfl⟩ := loop_inv (n := n) (body := factoriseBody (Num.arith binary64) false s.tol) (s := (mat A, s.piv, true))
    (fun i t' => t' = (mat (partWay A M i), s.piv, true))
    (by
      congr 2
      funext r c
      unfold partWay
      rw [if_neg (by omega), Nat.zero_min]
      rfl) (by
      rintro i t' hi rfl
      refine ⟨_, ?_, rfl⟩
      rw [← partWay_step hl hu ⟨i, hi⟩]
      refine body_ok (pivot := false) ⟨i, hi⟩ rfl ?_
      have := ha ⟨i, hi⟩
      unfold partWay
      rw [if_neg (by simp), Nat.min_self, ← hu _ _ le_rfl]
      exact this)
  unfold factorise
  rw [mat_length]
  simp only [Bool.false_eq_true, if_false]
  rw [h2]
  have : partWay A M n = M := by
    funext r c
    unfold partWay
    by_cases hc : c < r
    · rw [if_pos ⟨hc, c.2⟩]
    · rw [if_neg (by tauto), Nat.min_eq_right r.2.le, hu r c (not_lt.mp hc)]
  rw [this]
  rfl

end closed

/-! ### Powers of two -/

theorem less_scaled {n : Nat} (e : ℕ) {p : ℚ} (hp : Least p) (f g f' g' : Fin n → ℚ) (a m : Nat)
    (h : ∀ c : Fin n, a ≤ c.1 → c.1 < a + m → f' c * g' c = 2 ^ e * (f c * g c) ∧ NoUnderflow (f c * g c)) : ∀ {q' : ℚ},
    less (fin (2 ^ e * p) : Num binary64) (fun c => fin (f' c) * fin (g' c)) a m = fin q' →
    ∃ q, q' = 2 ^ e * q ∧ Least q ∧ less (fin p : Num binary64) (fun c => fin (f c) * fin (g c)) a m = fin q := by
  induction m with
  | zero =>
    intro q' hq
    exact ⟨p, (fin_inj.mp hq).symm, hp, rfl⟩
  | succ m ih =>
    intro q' hq
    by_cases hm : a + m < n
    · rw [less, dif_pos hm] at hq
      obtain ⟨v', w', h1, h2, h3⟩ := sub_fin hq
      obtain ⟨v, rfl, hv, h4⟩ := ih (fun c h1 h2 => h c h1 (by omega)) h1
      obtain ⟨e1, e2⟩ := h ⟨a + m, hm⟩ (by simp) (by simp)
      have h2' : binary64 (2 ^ e * (f ⟨a + m, hm⟩ * g ⟨a + m, hm⟩)) = .fin w' := by rw [← e1]; exact h2
      obtain ⟨w, rfl, hw⟩ := binary64_scale e (.inr e2) h2'
      rw [← mul_sub] at h3
      obtain ⟨q, rfl, hq'⟩ := binary64_scale e (.inl (hv.sub (binary64_least hw))) h3
      refine ⟨q, rfl, binary64_least hq', ?_⟩
      rw [less, dif_pos hm, h4, mul64 hw]
      show binary64 (v + -w) = .fin q
      rw [← sub_eq_add_neg]
      exact hq'
    · rw [less, dif_neg hm] at hq
      obtain ⟨q, h1, h2, h3⟩ := ih (fun c h1 h2 => h c h1 (by omega)) hq
      exact ⟨q, h1, h2, by rw [less, dif_neg hm]; exact h3⟩

theorem zero64 : binary64 0 = .fin 0 := by
  rw [binary64_near, near64_zero, abs_zero, if_pos (by positivity)]

theorem less_nothing {n : Nat} (f g : Fin n → ℚ) (a m : Nat) (h : ∀ c : Fin n, a ≤ c.1 → c.1 < a + m → f c * g c = 0) :
    less (fin 0 : Num binary64) (fun c => fin (f c) * fin (g c)) a m = fin 0 := by
  induction m with
  | zero => rfl
  | succ m ih =>
    by_cases hm : a + m < n
    · rw [less, dif_pos hm, ih fun c h1 h2 => h c h1 (by omega), mul64 (c := 0) (by rw [h ⟨a + m, hm⟩ (by simp) (by simp)]; exact zero64)]
      show binary64 (0 + -0) = .fin 0
      rw [neg_zero, add_zero]
      exact zero64
    · rw [less, dif_neg hm]
      exact ih fun c h1 h2 => h c h1 (by omega)

/-- A quotient `l` that is rounded in the same way after division by `2 ^ d`, as far as this can be seen from `l`: it is the same, or no
double is so small or so large that it has fewer digits. -/
def Survives (d : ℤ) (l : ℚ) : Prop :=
  d = 0 ∨ (l = 0 ∧ 0 ≤ d) ∨ (2 ^ (-1022 : ℤ) < |l| ∧ 2 ^ (-1022 : ℤ) < |2 ^ (-d) * l| ∧ |2 ^ (-d) * l| < 2 ^ 1024)

theorem near64_power {k : ℤ} (hk : -1074 ≤ k) : near64 (2 ^ k) = 2 ^ k := by
  refine near64_multiple (k := 1) (e := k) ?_ (by simp)
  unfold lastDigit
  rw [abs_of_pos (by positivity), show ((2 : ℚ) ^ k) = ((2 : ℕ) : ℚ) ^ k by norm_num, Int.log_zpow (by norm_num)]
  omega

theorem le_of_near {z : ℚ} {k : ℤ} (hk : -1074 ≤ k) (h : 2 ^ k < |near64 z|) : 2 ^ k ≤ |z| := by
  by_contra hc
  push Not at hc
  have := near64_mono hc.le
  rw [near64_power hk, ← near64_abs] at this
  linarith

theorem quotient_scaled {d : ℤ} {z l : ℚ} (h : binary64 (2 ^ d * z) = .fin l) (hc : Survives d l ∨ z = 0) :
    binary64 z = .fin (2 ^ (-d) * l) := by
  have hl : near64 (2 ^ d * z) = l ∧ |l| < 2 ^ 1024 := by
    rw [binary64_near] at h
    split at h
    · rename_i hb
      rw [Fl.fin.injEq] at h
      rw [h] at hb
      exact ⟨h, hb⟩
    · cases h
  rcases hc with (rfl | ⟨rfl, hd⟩ | ⟨h1, h2, h3⟩) | rfl
  · simpa using h
  · have h1 : near64 |z| ≤ near64 |2 ^ d * z| := by
      refine near64_mono ?_
      rw [abs_mul, abs_of_pos (by positivity : (0 : ℚ) < 2 ^ d)]
      exact le_mul_of_one_le_left (abs_nonneg _) (one_le_zpow₀ (by norm_num) hd)
    rw [← near64_abs, ← near64_abs, hl.1, abs_zero, abs_nonpos_iff] at h1
    rw [binary64_near, h1, mul_zero, abs_zero, if_pos (by positivity)]
  · have key : near64 z = 2 ^ (-d) * l := by
      have a1 : 2 ^ (-1022 : ℤ) ≤ |2 ^ d * z| := le_of_near (by norm_num) (by rw [hl.1]; exact h1)
      rcases le_total 0 d with hd | hd
      · obtain ⟨e, rfl⟩ := Int.eq_ofNat_of_zero_le hd
        have a2 : 2 ^ (-1022 : ℤ) ≤ |z| := by
          have : (2 : ℚ) ^ ((e : ℤ) - 1022) ≤ |2 ^ (e : ℤ) * z| := by
            refine le_of_near (by omega) ?_
            rw [hl.1, sub_eq_add_neg, zpow_add₀ (by norm_num)]
            rw [abs_mul, abs_of_pos (by positivity), zpow_neg (2 : ℚ) (e : ℤ)] at h2
            have h5 : (0 : ℚ) < 2 ^ (e : ℤ) := by positivity
            calc (2 : ℚ) ^ (e : ℤ) * 2 ^ (-1022 : ℤ) < 2 ^ (e : ℤ) * ((2 ^ (e : ℤ))⁻¹ * |l|) := mul_lt_mul_of_pos_left h2 h5
              _ = |l| := by rw [mul_inv_cancel_left₀ h5.ne']
          rw [sub_eq_add_neg, zpow_add₀ (by norm_num), abs_mul, abs_of_pos (by positivity : (0 : ℚ) < 2 ^ (e : ℤ))] at this
          exact le_of_mul_le_mul_left this (by positivity)
        have := near64_scale e (q := z) (.inr (.inr a2))
        rw [zpow_natCast] at hl
        rw [hl.1] at this
        rw [this, zpow_neg, zpow_natCast, inv_mul_cancel_left₀ (by positivity)]
      · obtain ⟨e, he⟩ := Int.eq_ofNat_of_zero_le (show 0 ≤ -d by omega)
        have := near64_scale e (q := 2 ^ d * z) (.inr (.inr a1))
        have hz : (2 : ℚ) ^ e * (2 ^ d * z) = z := by
          rw [← mul_assoc, ← zpow_natCast, ← he, ← zpow_add₀ (by norm_num)]
          simp
        rw [hz, hl.1] at this
        rw [this, he, zpow_natCast]
    rw [binary64_near, key, if_pos h3]
  · rw [mul_zero, near64_zero] at hl
    rw [← hl.1, mul_zero]
    exact zero64

/-! ### The property -/

section

variable {n : Nat}

/-- The factors of the equations without the powers of two. -/
def unscaled (κ : Fin n → ℕ) (M : Fin n → Fin n → ℚ) (r c : Fin n) : ℚ :=
  if c < r then 2 ^ (-((κ r : ℤ) - κ c)) * M r c else M r c / 2 ^ κ r

theorem unscaled_lower (κ : Fin n → ℕ) (M : Fin n → Fin n → ℚ) {r c : Fin n} (h : c < r) :
    M r c = 2 ^ ((κ r : ℤ) - κ c) * unscaled κ M r c := by
  unfold unscaled
  rw [if_pos h, ← mul_assoc, ← zpow_add₀ (by norm_num)]
  simp

theorem unscaled_upper (κ : Fin n → ℕ) (M : Fin n → Fin n → ℚ) {r c : Fin n} (h : r ≤ c) : M r c = 2 ^ κ r * unscaled κ M r c := by
  unfold unscaled
  rw [if_neg (not_lt.mpr h)]
  field_simp

theorem scaled_product (κ : Fin n → ℕ) (M : Fin n → Fin n → ℚ) {r k : Fin n} (hr : k < r) {x y : ℚ} (h : x = 2 ^ κ k * y) :
    M r k * x = 2 ^ κ r * (unscaled κ M r k * y) := by
  rw [unscaled_lower κ M hr, h, sub_eq_add_neg, zpow_add₀ (by norm_num), zpow_neg, zpow_natCast, zpow_natCast]
  field_simp

/-- C206: the direct solver without pivoting, with doubles. Each equation is multiplied by its power of two `2 ^ κ r`, right hand side
included. If this system is accepted and solved with finite factors and a finite solution, then so is the one without the powers of two,
with the same solution to the last bit and the factors that belong to it. What is needed is that the pivots without the powers reach the
tolerance, that products in the smaller system do not underflow, and that the multipliers of rows with different powers do not. -/
theorem c206_equations (s s' u : Lu (Num binary64)) {t' t : ℚ} (ht' : 0 < t') (hs : s.tol = fin t') (ht : 0 < t) (hu : u.tol = fin t)
    (κ : Fin n → ℕ) (A : Fin n → Fin n → ℚ) (hA : ∀ r c, binary64 (A r c) = .fin (A r c))
    (hf : factorise (Num.arith binary64) false s (mat fun r c => (fin (2 ^ κ r * A r c) : Num binary64)) = .ok (s', true))
    (M : Fin n → Fin n → ℚ) (hM : s'.lu = mat fun r c => (fin (M r c) : Num binary64))
    (hpiv : ∀ i, t ≤ |M i i / 2 ^ κ i|)
    (hprod : ∀ r c k, k < r → k < c → NoUnderflow (unscaled κ M r k * unscaled κ M k c))
    (hquot : ∀ r c, c < r → Survives ((κ r : ℤ) - κ c) (M r c) ∨ (A r c = 0 ∧ ∀ k, k < c → M r k * M k c = 0)) :
    factorise (Num.arith binary64) false u (mat fun r c => (fin (A r c) : Num binary64)) =
      .ok (⟨true, u.tol, mat fun r c => fin (unscaled κ M r c), u.piv⟩, true) ∧
    ∀ (b x : Fin n → ℚ) (x0 x0' : List (Num binary64)), (∀ r, binary64 (b r) = .fin (b r)) →
      Lu.solve false s' x0 (some (vec fun r => (fin (2 ^ κ r * b r) : Num binary64))) =
        .ok (vec (fun r => (fin (x r) : Num binary64)), true, 1) →
      (∀ y : Fin n → ℚ, (∀ r, fin (y r) = less (fin (2 ^ κ r * b r) : Num binary64) (fun c => fin (M r c) * fin (y c)) 0 r.1) →
        ∀ r c, c < r → NoUnderflow (unscaled κ M r c * (y c / 2 ^ κ c))) →
      (∀ r c, r < c → NoUnderflow (unscaled κ M r c * x c)) →
      Lu.solve false ⟨true, u.tol, mat fun r c => fin (unscaled κ M r c), u.piv⟩ x0' (some (vec fun r => (fin (b r) : Num binary64))) =
        .ok (vec (fun r => (fin (x r) : Num binary64)), true, 1) := by
  have hp : ∀ k : ℕ, (0 : ℚ) < 2 ^ k := fun k => by positivity
  have hd0 : ∀ i, M i i ≠ 0 := fun i h0 => by
    have := hpiv i
    rw [h0, zero_div, abs_zero] at this
    linarith
  have hcl := factorise_closed _ s s' _ _ hf hM
  have hdiag : ∀ i, unscaled κ M i i = M i i / 2 ^ κ i := fun i => by
    unfold unscaled
    rw [if_neg (lt_irrefl _)]
  have hd : ∀ i, unscaled κ M i i ≠ 0 := fun i => by
    rw [hdiag]
    exact div_ne_zero (hd0 i) (hp _).ne'
  have num : ∀ (r c : Fin n) (m : Nat), m ≤ r.1 → m ≤ c.1 → ∀ q',
      less (fin (2 ^ κ r * A r c) : Num binary64) (fun k => fin (M r k) * fin (M k c)) 0 m = fin q' →
      ∃ q, q' = 2 ^ κ r * q ∧ Least q ∧
        less (fin (A r c) : Num binary64) (fun k => fin (unscaled κ M r k) * fin (unscaled κ M k c)) 0 m = fin q := by
    intro r c m hr hc q' hq
    refine less_scaled (κ r) (binary64_least (hA r c)) _ _ _ _ 0 m (fun k _ hk => ?_) hq
    have h1 : k < r := show k.1 < r.1 by omega
    have h2 : k < c := show k.1 < c.1 by omega
    exact ⟨scaled_product κ M h1 (unscaled_upper κ M h2.le), hprod r c k h1 h2⟩
  have hfac := factorise_of_closed (A := fun r c => (fin (A r c) : Num binary64)) (M := fun r c => fin (unscaled κ M r c)) u (by
      intro r c hcr
      have hcr' : c.1 < r.1 := hcr
      have h1 := (hcl r c).1 hcr
      obtain ⟨q', e1, e2⟩ := div_fin (hd0 c) h1.symm
      obtain ⟨q, rfl, -, e4⟩ := num r c c.1 hcr'.le le_rfl q' e1
      rw [e4]
      symm
      refine div64 (hd c) ?_
      rw [show unscaled κ M r c = 2 ^ (-((κ r : ℤ) - κ c)) * M r c by unfold unscaled; rw [if_pos hcr]]
      refine quotient_scaled (d := (κ r : ℤ) - κ c) ?_ ?_
      · rw [← e2, unscaled_upper κ M (le_refl c), sub_eq_add_neg, zpow_add₀ (by norm_num), zpow_neg, zpow_natCast, zpow_natCast]
        congr 1
        have := (hp (κ c)).ne'
        have := hd c
        field_simp
      · refine (hquot r c hcr).imp id fun h0 => ?_
        have : q = 0 := by
          have h2 := less_nothing (fun k => unscaled κ M r k) (fun k => unscaled κ M k c) 0 c.1 (fun k _ hk => by
            have hk' : k < c := show k.1 < c.1 by omega
            have := h0.2 k hk'
            rw [scaled_product κ M (hk'.trans hcr) (unscaled_upper κ M hk'.le)] at this
            exact (mul_eq_zero.mp this).resolve_left (hp _).ne')
          rw [h0.1, h2] at e4
          exact (fin_inj.mp e4).symm
        rw [this, zero_div]) (by
      intro r c hrc
      have hrc' : r.1 ≤ c.1 := hrc
      have h1 := (hcl r c).2 hrc
      obtain ⟨q, e1, -, e4⟩ := num r c r.1 le_rfl hrc' _ h1.symm
      rw [e4, fin_inj]
      rw [unscaled_upper κ M hrc] at e1
      exact mul_left_cancel₀ (hp _).ne' e1) (by
      intro i
      rw [hu]
      show Fl.lt (Fl.abs (.fin _)) (.fin t) = false
      simp only [Fl.lt, Fl.abs, decide_eq_false_iff_not, not_lt, hdiag]
      exact hpiv i)
  refine ⟨hfac, fun b x x0 x0' hb hx hy0 hx0 => ?_⟩
  obtain ⟨p, -, hp1, hsol⟩ := solve_sweeps false s s' ht' hs _ hf _ hM
  obtain rfl := hp1 rfl
  obtain ⟨y', x', k1, k2, k3⟩ := hsol (fun r => fin (2 ^ κ r * b r)) x0
  have hx' : x' = fun r => fin (x r) := by
    rw [hx] at k1
    simp only [Out.ok.injEq, Prod.mk.injEq, and_true] at k1
    exact (vec_inj.mp k1).symm
  subst hx'
  obtain ⟨p, -, hp2, hsol2⟩ := solve_sweeps false u _ ht hu _ hfac _ rfl
  obtain rfl := hp2 rfl
  obtain ⟨y, z, j1, j2, j3⟩ := hsol2 (fun r => fin (b r)) x0'
  rw [j1]
  have hyf : ∀ r, ∃ q, y' r = fin q := fun r => by
    obtain ⟨q', e1, -⟩ := div_fin (hd0 r) (k3 r).symm
    exact ⟨_, (less_error rounds_binary64 (by norm_num) _ (fun c => fin (M r c)) (fun c => fin (x c)) _ _
      (by have := r.2; omega) _ e1).1⟩
  choose w hw using hyf
  obtain rfl : y' = fun r => fin (w r) := funext hw
  have hsc : ∀ r, w r = 2 ^ κ r * (w r / 2 ^ κ r) := fun r => by field_simp
  have hun := hy0 w k2
  have hy : ∀ k, ∀ r : Fin n, r.1 = k → y r = fin (w r / 2 ^ κ r) ∧ Least (w r / 2 ^ κ r) := by
    intro k
    induction k using Nat.strong_induction_on with
    | _ k ih =>
      rintro r rfl
      obtain ⟨q, e1, e2, e3⟩ := less_scaled (κ r) (binary64_least (hb r)) (fun c => unscaled κ M r c) (fun c => w c / 2 ^ κ c)
        (fun c => M r c) w 0 r.1 (fun c _ hc => by
          have hc' : c < r := show c.1 < r.1 by omega
          exact ⟨scaled_product κ M hc' (hsc c), hun r c hc'⟩) (k2 r).symm
      have e4 : w r / 2 ^ κ r = q := by rw [e1]; field_simp
      rw [e4]
      refine ⟨?_, e2⟩
      rw [j2 r, ← e3]
      refine less_congr fun c _ hc => ?_
      rw [(ih c.1 (by omega) c rfl).1]
  have hxz : ∀ k, ∀ r : Fin n, n - 1 - r.1 = k → z r = fin (x r) := by
    intro k
    induction k using Nat.strong_induction_on with
    | _ k ih =>
      rintro r rfl
      obtain ⟨q', e1, e2⟩ := div_fin (hd0 r) (k3 r).symm
      have e1 : less (fin (2 ^ κ r * (w r / 2 ^ κ r)) : Num binary64) (fun c => fin (M r c) * fin (x c)) (r.1 + 1) (n - (r.1 + 1)) =
          fin q' := by
        rw [← hsc r]
        exact e1
      obtain ⟨q, rfl, -, e3⟩ := less_scaled (κ r) (hy _ r rfl).2 (fun c => unscaled κ M r c) x (fun c => M r c) x (r.1 + 1) (n - (r.1 + 1))
        (fun c hc _ => by
          have hc' : r < c := hc
          exact ⟨by rw [unscaled_upper κ M hc'.le, mul_assoc], hx0 r c hc'⟩) e1
      have e4 : less (y r) (fun c => fin (unscaled κ M r c) * z c) (r.1 + 1) (n - (r.1 + 1)) = fin q := by
        rw [(hy _ r rfl).1, ← e3]
        refine less_congr fun c hc _ => ?_
        rw [ih (n - 1 - c.1) (by have := c.2; omega) c rfl]
      rw [j3 r, e4]
      refine div64 (hd r) ?_
      rw [← e2, unscaled_upper κ M (le_refl r), mul_div_mul_left _ _ (hp _).ne']
  rw [show z = fun r => fin (x r) from funext fun r => hxz _ r rfl]

/-- C206: all equations times the same power of two. Then the multipliers are the same, and only products need a condition. -/
theorem c206_multiple (s s' u : Lu (Num binary64)) {t' t : ℚ} (ht' : 0 < t') (hs : s.tol = fin t') (ht : 0 < t) (hu : u.tol = fin t)
    (e : ℕ) (A : Fin n → Fin n → ℚ) (hA : ∀ r c, binary64 (A r c) = .fin (A r c))
    (hf : factorise (Num.arith binary64) false s (mat fun r c => (fin (2 ^ e * A r c) : Num binary64)) = .ok (s', true))
    (M : Fin n → Fin n → ℚ) (hM : s'.lu = mat fun r c => (fin (M r c) : Num binary64)) (hpiv : ∀ i, t ≤ |M i i / 2 ^ e|)
    (hprod : ∀ r c k, k < r → k < c → NoUnderflow (M r k * (M k c / 2 ^ e))) :
    factorise (Num.arith binary64) false u (mat fun r c => (fin (A r c) : Num binary64)) =
      .ok (⟨true, u.tol, mat fun r c => fin (if c < r then M r c else M r c / 2 ^ e), u.piv⟩, true) := by
  have h0 : unscaled (fun _ => e) M = fun r c => if c < r then M r c else M r c / 2 ^ e := by
    funext r c
    unfold unscaled
    simp
  have := (c206_equations s s' u ht' hs ht hu (fun _ => e) A hA hf M hM hpiv (fun r c k h1 h2 => by
    have h3 : unscaled (fun _ => e) M r k = M r k := by rw [h0]; exact if_pos h1
    have h4 : unscaled (fun _ => e) M k c = M k c / 2 ^ e := by rw [h0]; exact if_neg (lt_asymm h2)
    rw [h3, h4]
    exact hprod r c k h1 h2) (fun r c _ => .inl (.inl (by simp)))).1
  rw [h0] at this
  exact this

end

/-- C206: with pivoting the units of the equations matter even if all are the same, since the search for the largest element takes
elements whose sizes differ by little for equal. -/
theorem c206_pivoting : ∃ (s : Lu (Num binary64)) (s1 s2 : Lu (Num binary64)), s.tol = fin (1 / 2 ^ 80) ∧
    factorise (Num.arith binary64) true s [[fin (1 / 2 ^ 60), fin (1 / 2 ^ 60)], [fin (2 / 2 ^ 60), fin (1 / 2 ^ 60)]] = .ok (s1, true) ∧
    s1.piv = [0, 1] ∧
    factorise (Num.arith binary64) true s [[fin 1, fin 1], [fin 2, fin 1]] = .ok (s2, true) ∧ s2.piv = [1, 0] :=
  ⟨⟨false, fin (1 / 2 ^ 80), [], []⟩,
    ⟨true, fin (1 / 2 ^ 80), [[fin (1 / 2 ^ 60), fin (1 / 2 ^ 60)], [fin 2, fin (-1 / 2 ^ 60)]], [0, 1]⟩,
    ⟨true, fin (1 / 2 ^ 80), [[fin 2, fin 1], [fin (1 / 2), fin (1 / 2)]], [1, 0]⟩, by decide +kernel⟩

/-- C206: a product that underflows: the last pivot is 3 / 2 ^ 1074, while that of the matrix times two is 7 / 2 ^ 1074. -/
theorem c206_underflow : ∃ s : Lu (Num binary64), s.tol = fin (1 / 2 ^ 1074) ∧
    factorise (Num.arith binary64) false s [[fin 1, fin (3 / 2 ^ 1074)], [fin (1 / 2), fin (5 / 2 ^ 1074)]] =
      .ok (⟨true, s.tol, [[fin 1, fin (3 / 2 ^ 1074)], [fin (1 / 2), fin (3 / 2 ^ 1074)]], s.piv⟩, true) ∧
    factorise (Num.arith binary64) false s [[fin 2, fin (6 / 2 ^ 1074)], [fin 1, fin (10 / 2 ^ 1074)]] =
      .ok (⟨true, s.tol, [[fin 2, fin (6 / 2 ^ 1074)], [fin (1 / 2), fin (7 / 2 ^ 1074)]], s.piv⟩, true) :=
  ⟨⟨false, fin (1 / 2 ^ 1074), [], []⟩, by decide +kernel⟩

/-- The second equation of this system is multiplied by 8. The factors and the solution are rounded. -/
def eighthFactors (r c : Fin 2) : ℚ := ![![3, 1], ![6004799503160661 / 2 ^ 51, 6004799503160661 / 2 ^ 48]] r c

example : ∃ s', factorise (Num.arith binary64) false freshDouble
      (mat fun r c : Fin 2 => (fin (2 ^ (![0, 3] : Fin 2 → ℕ) r * (![![3, 1], ![1, 3]] : Fin 2 → Fin 2 → ℚ) r c) : Num binary64)) =
        .ok (s', true) ∧
    s'.lu = mat (fun r c => (fin (eighthFactors r c) : Num binary64)) :=
  ⟨⟨true, freshDouble.tol, mat (fun r c => (fin (eighthFactors r c) : Num binary64)), []⟩, by decide +kernel, rfl⟩

example : (∀ r c k : Fin 2, k < r → k < c → NoUnderflow (unscaled ![0, 3] eighthFactors r k * unscaled ![0, 3] eighthFactors k c)) ∧
    ∀ r c : Fin 2, c < r → Survives (((![0, 3] : Fin 2 → ℕ) r : ℤ) - (![0, 3] : Fin 2 → ℕ) c) (eighthFactors r c) := by
  unfold NoUnderflow Survives
  decide +kernel

end Disa.Props
