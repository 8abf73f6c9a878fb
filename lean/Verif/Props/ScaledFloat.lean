import Verif.Props.MonotoneFloat
import Verif.Props.NormFloat

/-!
# Property C172: doubles times a power of two
-/

namespace Disa.Props

open Disa Spec Dense Num Sparse Iterative

/-- The number is a multiple of the smallest positive double. -/
def Least (q : ℚ) : Prop := ∃ k : ℤ, q = k * 2 ^ (-1074 : ℤ)

/-- The number is zero or at least the smallest normal double. -/
def NoUnderflow (q : ℚ) : Prop := q = 0 ∨ 2 ^ (-1022 : ℤ) ≤ |q|

theorem log_scale (e : ℕ) {q : ℚ} (hq : q ≠ 0) : Int.log 2 |2 ^ e * q| = Int.log 2 |q| + e := by
  have h0 : 0 < |q| := abs_pos.mpr hq
  have h1 : |2 ^ e * q| = 2 ^ e * |q| := by rw [abs_mul, abs_of_pos (by positivity)]
  rw [h1]
  have hp : 0 < 2 ^ e * |q| := by positivity
  have a1 := Int.zpow_log_le_self (b := 2) (by norm_num) h0
  have a2 := Int.lt_zpow_succ_log_self (b := 2) (by norm_num) |q|
  push_cast at a1 a2
  apply le_antisymm
  · have : Int.log 2 (2 ^ e * |q|) < Int.log 2 |q| + e + 1 := by
      rw [← Int.lt_zpow_iff_log_lt (by norm_num) hp]
      push_cast
      rw [show Int.log 2 |q| + e + 1 = e + (Int.log 2 |q| + 1) by ring, zpow_add₀ (by norm_num), zpow_natCast]
      exact mul_lt_mul_of_pos_left a2 (by positivity)
    omega
  · rw [← Int.zpow_le_iff_le_log (by norm_num) hp]
    push_cast
    rw [show Int.log 2 |q| + e = e + Int.log 2 |q| by ring, zpow_add₀ (by norm_num), zpow_natCast]
    exact mul_le_mul_of_nonneg_left a1 (by positivity)

/-- Rounding commutes with a power of two, unless the number is too small and is no double. -/
theorem near64_scale (e : ℕ) {q : ℚ} (h : Least q ∨ NoUnderflow q) : near64 (2 ^ e * q) = 2 ^ e * near64 q := by
  by_cases h0 : q = 0
  · rw [h0, mul_zero, near64_zero, mul_zero]
  have hp : 0 < |q| := abs_pos.mpr h0
  by_cases hl : -1022 ≤ Int.log 2 |q|
  · have e1 : lastDigit (2 ^ e * q) = lastDigit q + e := by
      unfold lastDigit
      rw [log_scale e h0]
      omega
    unfold near64
    rw [e1, zpow_add₀ (by norm_num), zpow_natCast, mul_comm (2 ^ lastDigit q : ℚ) (2 ^ e), mul_div_mul_left _ _ (by positivity)]
    ring
  · rcases h with ⟨k, hk⟩ | h | h
    · have e1 : near64 q = q := near64_multiple (k := k) (e := -1074) (by unfold lastDigit; omega) hk
      rw [e1]
      refine near64_multiple (k := k) (e := e + -1074) (by unfold lastDigit; rw [log_scale e h0]; omega) ?_
      rw [zpow_add₀ (by norm_num), zpow_natCast, hk]
      ring
    · exact absurd h h0
    · exfalso
      apply hl
      rw [← Int.zpow_le_iff_le_log (by norm_num) hp]
      exact_mod_cast h

theorem binary64_scale (e : ℕ) {q r : ℚ} (h : Least q ∨ NoUnderflow q) (hr : binary64 (2 ^ e * q) = .fin r) :
    ∃ s, r = 2 ^ e * s ∧ binary64 q = .fin s := by
  rw [binary64_near, near64_scale e h] at hr
  split at hr
  · rename_i hb
    rw [Fl.fin.injEq] at hr
    refine ⟨near64 q, hr.symm, ?_⟩
    rw [binary64_near, if_pos]
    refine lt_of_le_of_lt ?_ hb
    rw [abs_mul, abs_of_pos (show (0 : ℚ) < 2 ^ e by positivity)]
    exact le_mul_of_one_le_left (abs_nonneg _) (one_le_pow₀ (by norm_num))
  · cases hr

theorem binary64_least {q r : ℚ} (h : binary64 q = .fin r) : Least r := by
  obtain ⟨k, hk⟩ := multiple_of_least h
  refine ⟨k, hk.trans ?_⟩
  rw [zpow_neg, one_div]
  norm_cast

theorem Least.add {p q : ℚ} (hp : Least p) (hq : Least q) : Least (p + q) := by
  obtain ⟨k, rfl⟩ := hp
  obtain ⟨l, rfl⟩ := hq
  exact ⟨k + l, by push_cast; ring⟩

theorem Least.sub {p q : ℚ} (hp : Least p) (hq : Least q) : Least (p - q) := by
  obtain ⟨k, rfl⟩ := hp
  obtain ⟨l, rfl⟩ := hq
  exact ⟨k - l, by push_cast; ring⟩

theorem binary64_scale_exact (e : ℕ) {q : ℚ} (h : binary64 q = .fin q) (hq : |2 ^ e * q| < 2 ^ 1024) :
    binary64 (2 ^ e * q) = .fin (2 ^ e * q) := by
  rw [binary64_near, near64_scale e (.inl (binary64_least h)), near_of_double h, if_pos hq]

section rows

variable {sqrt : Num binary64 → Num binary64} {n : Nat}

theorem sumOff_scaled (e : ℕ) {z : Fin n → ℚ} {i : Nat} {A : Fin n → ℚ} (r r' : List (Nat × Num binary64))
    (hr : List.Forall₂ (fun x y => x.1 = y.1 ∧ ∃ h : x.1 < n, x.2 = fin (A ⟨x.1, h⟩) ∧ y.2 = fin (2 ^ e * A ⟨x.1, h⟩)) r r')
    (hz : ∀ j : Fin n, j.1 ≠ i → NoUnderflow (A j * z j)) : ∀ {p q' : ℚ}, Least p →
    sumOff r' i (vec fun i => fin (z i)) (fin (2 ^ e * p)) = fin q' →
    ∃ q, q' = 2 ^ e * q ∧ Least q ∧ sumOff r i (vec fun i => fin (z i)) (fin p) = fin q := by
  induction hr with
  | nil =>
    intro p q' hp h
    exact ⟨p, (fin_inj.mp h).symm, hp, rfl⟩
  | @cons x y r r' hxy _ ih =>
    intro p q' hp h
    obtain ⟨h1, h2, h3, h4⟩ := hxy
    simp only [sumOff, List.foldl_cons] at h ⊢
    by_cases hi : x.1 = i
    · rw [if_pos hi]
      rw [if_pos (h1 ▸ hi)] at h
      exact ih hp h
    · rw [if_neg hi, h3, getD_vec, dif_pos h2]
      rw [if_neg (h1 ▸ hi), h4, ← h1, getD_vec, dif_pos h2] at h
      obtain ⟨s, hs⟩ := sumOff_fin h
      rw [hs] at h
      obtain ⟨_, t, e1, e2, e3⟩ := add_fin hs
      rw [fin_inj] at e1
      subst e1
      have e2' : binary64 (2 ^ e * (A ⟨x.1, h2⟩ * z ⟨x.1, h2⟩)) = .fin t := by rw [← mul_assoc]; exact e2
      obtain ⟨t', rfl, ht'⟩ := binary64_scale e (.inr (hz ⟨x.1, h2⟩ hi)) e2'
      have e3' : binary64 (2 ^ e * (p + t')) = .fin s := by rw [mul_add]; exact e3
      obtain ⟨s', rfl, hs'⟩ := binary64_scale e (.inl (hp.add (binary64_least ht'))) e3'
      have : (fin p : Num binary64) + fin (A ⟨x.1, h2⟩) * fin (z ⟨x.1, h2⟩) = fin s' := by
        rw [mul64 ht']
        exact hs'
      rw [this]
      exact ih (binary64_least hs') h

theorem forall₂_scaled (e : ℕ) {A : Fin n → ℚ} (r : List (Nat × Num binary64)) (hr : ∀ x ∈ r, ∃ h : x.1 < n, x.2 = fin (A ⟨x.1, h⟩))
    (hA : ∀ j, binary64 (2 ^ e * A j) = .fin (2 ^ e * A j)) :
    List.Forall₂ (fun x y => x.1 = y.1 ∧ ∃ h : x.1 < n, x.2 = fin (A ⟨x.1, h⟩) ∧ y.2 = fin (2 ^ e * A ⟨x.1, h⟩)) r
      (r.map fun x => (x.1, x.2 * (fin (2 ^ e) : Num binary64))) := by
  rw [List.forall₂_map_right_iff, List.forall₂_same]
  intro x hx
  obtain ⟨h, h'⟩ := hr x hx
  refine ⟨rfl, h, h', ?_⟩
  rw [h']
  exact mul64 (by rw [mul_comm]; exact hA _)

theorem newValue_scaled (e : ℕ) {L L' : Rows (Num binary64)} {b z : Fin n → ℚ} {a : Fin n → Fin n → ℚ} {i : Fin n} (hd : a i i ≠ 0)
    (hr : List.Forall₂ (fun x y => x.1 = y.1 ∧ ∃ h : x.1 < n, x.2 = fin (a i ⟨x.1, h⟩) ∧ y.2 = fin (2 ^ e * a i ⟨x.1, h⟩))
      (row L i) (row L' i)) (hb : Least (b i)) (hz : ∀ j : Fin n, j ≠ i → NoUnderflow (a i j * z j)) {y : ℚ}
    (h : newValue (floats binary64 sqrt) L' (fun i => fin (2 ^ e * b i)) (fin 1) (fin (2 ^ e * a i i)) (fun i => fin (z i)) i = fin y) :
    newValue (floats binary64 sqrt) L (fun i => fin (b i)) (fin 1) (fin (a i i)) (fun i => fin (z i)) i = fin y := by
  have h2 : (2 : ℚ) ^ e ≠ 0 := by positivity
  obtain ⟨s, u, v, t, e1, e2, e3, e4, e5⟩ := newValue_steps (mul_ne_zero h2 hd) h
  obtain ⟨s', rfl, ls, f1⟩ := sumOff_scaled e (p := 0) _ _ hr (fun j hj => hz j fun h => hj (congrArg Fin.val h)) ⟨0, by simp⟩
    (by rw [mul_zero]; exact e1)
  simp only [← mul_sub] at e2
  obtain ⟨u', rfl, f2⟩ := binary64_scale e (.inl (hb.sub ls)) e2
  rw [mul_left_comm] at e3
  obtain ⟨v', rfl, f3⟩ := binary64_scale e (.inl (by rw [one_mul]; exact binary64_least f2)) e3
  rw [mul_div_mul_left _ _ h2] at e4
  exact newValue_of_steps hd f1 f2 f3 e4 e5

variable {m : Sparse (Num binary64)} {a : Fin n → Fin n → ℚ} {k : Method}

/-- The iterations up to one of them. -/
theorem nextF_times_lt {L : Rows (Num binary64)} (h : FinRows m L a) (hk : k ≠ .sor) (s : FixedPoint (Num binary64)) {b : Fin n → ℚ}
    {xs : Nat → Fin n → ℚ} {w : List (Num binary64)} (hw : k = .jacobi → w.length = n) {J : Nat}
    (hn : ∀ j, j < J → NextF sqrt L a b k (xs j) (xs (j + 1))) (j : Nat) (hj : j ≤ J) :
    ∃ w', times (step (floats binary64 sqrt) k s m (vec fun i => fin (b i))) j (vec fun i => fin (xs 0 i), w) =
      .ok (vec fun i => fin (xs j i), w') ∧ (k = .jacobi → w'.length = n) := by
  induction j with
  | zero => exact ⟨w, rfl, hw⟩
  | succ j ih =>
    obtain ⟨w', e1, e2⟩ := ih (by omega)
    obtain ⟨w'', e3, e4⟩ := nextF_step h hk s e2 (hn j (by omega))
    exact ⟨w'', by rw [times_succ, e1]; exact e3, e4⟩

end rows

variable {sqrt : Num binary64 → Num binary64} {n : Nat} {m : Sparse (Num binary64)} {a : Fin n → Fin n → ℚ} {k : Method}

/-- C172: if the matrix and the right hand side times a power of two give a finite iterate, then without that factor the iterate is the
same in each bit, unless a product of an element and a value of an iterate lies strictly between zero and the smallest normal double. -/
theorem c172_power_of_two (hk : k ≠ .sor) (s s' : FixedPoint (Num binary64)) (hm : Square m fun i j => (fin (a i j) : Num binary64))
    (ha : ∀ i j, binary64 (a i j) = .fin (a i j)) (hd : ∀ i, a i i ≠ 0) (b x y : Fin n → ℚ) (hb : ∀ i, binary64 (b i) = .fin (b i))
    (e : ℕ) (hae : ∀ i j, |2 ^ e * a i j| < 2 ^ 1024) (w w' v : List (Num binary64)) (hw : k = .jacobi → w.length = n)
    (hw' : k = .jacobi → w'.length = n) (j : Nat)
    (h : times (step (floats binary64 sqrt) k s (m.scale (fin (2 ^ e))) (vec fun i => fin (2 ^ e * b i))) j
      (vec fun i => fin (x i), w) = .ok (vec fun i => fin (y i), v))
    (hz : ∀ l ≤ j, ∀ (z : Fin n → ℚ) (u : List (Num binary64)),
      times (step (floats binary64 sqrt) k s (m.scale (fin (2 ^ e))) (vec fun i => fin (2 ^ e * b i))) l
        (vec fun i => fin (x i), w) = .ok (vec fun i => fin (z i), u) →
      ∀ i p, p ≠ i → a i p * z p = 0 ∨ 2 ^ (-1022 : ℤ) ≤ |a i p * z p|) :
    ∃ v', times (step (floats binary64 sqrt) k s' m (vec fun i => fin (b i))) j (vec fun i => fin (x i), w') =
      .ok (vec fun i => fin (y i), v') := by
  obtain ⟨L, hL⟩ := finRows hm hd
  have hA : ∀ i j, binary64 (2 ^ e * a i j) = .fin (2 ^ e * a i j) := fun i j => binary64_scale_exact e (ha i j) (hae i j)
  have hF : ∀ i : Fin n, List.Forall₂ (fun x y => x.1 = y.1 ∧ ∃ h : x.1 < n, x.2 = fin (a i ⟨x.1, h⟩) ∧ y.2 = fin (2 ^ e * a i ⟨x.1, h⟩))
      (row L i) (row (L.map fun r => r.map fun x => (x.1, x.2 * (fin (2 ^ e) : Num binary64))) i) := fun i => by
    rw [row_map _ (by rfl)]
    exact forall₂_scaled e _ (hL.elem i) (hA i)
  have hL' : FinRows (m.scale (fin (2 ^ e))) (L.map fun r => r.map fun x => (x.1, x.2 * (fin (2 ^ e) : Num binary64)))
      (fun i j => 2 ^ e * a i j) := by
    refine ⟨hL.rep.mapVals (· * fin (2 ^ e)), ?_, by rw [List.length_map]; exact hL.length, fun i => ?_, fun i y hy => ?_⟩
    · intro i y hy
      rw [row_map _ (by rfl), List.mem_map] at hy
      obtain ⟨x, hx, rfl⟩ := hy
      exact hL.bounded i x hx
    · rw [entry_mapVals (· * (fin (2 ^ e) : Num binary64)), hL.diag i]
      exact congrArg some (mul64 (by rw [mul_comm]; exact hA i i))
    · rw [row_map _ (by rfl), List.mem_map] at hy
      obtain ⟨x, hx, rfl⟩ := hy
      obtain ⟨h1, h2⟩ := hL.elem i x hx
      refine ⟨h1, ?_⟩
      simp only [h2]
      exact mul64 (by rw [mul_comm]; exact hA _ _)
  obtain ⟨xs, rfl, rfl, hn⟩ := times_nextF hL' hk s hw h
  have hz' : ∀ l ≤ j, ∀ i p, p ≠ i → NoUnderflow (a i p * xs l p) := fun l hl => by
    obtain ⟨u, hu, -⟩ := nextF_times_lt hL' hk s hw hn l hl
    exact hz l hl _ u hu
  obtain ⟨v', hv', -⟩ := nextF_times_lt (k := k) (sqrt := sqrt) hL hk s' (b := b) (xs := xs) hw' (fun l hl i => newValue_scaled e (hd i) (hF i) (binary64_least (hb i))
    (fun p hp => by
      split
      · exact hz' (l + 1) hl i p hp
      · exact hz' l hl.le i p hp) (hn l hl i)) j le_rfl
  exact ⟨v', hv'⟩

theorem dense2_fin (p q r t : ℚ) : Square (dense2 (fin p) (fin q) (fin r) (fin t) : Sparse (Num binary64))
    fun i j => fin ((![![p, q], ![r, t]] : Fin 2 → Fin 2 → ℚ) i j) := by
  refine ⟨Built.ofLists (nz := [0, 2, 4]) (ix := [0, 1, 0, 1]) (vs := [fin p, fin q, fin r, fin t]) (c := 2)
    (by simp [sizeMax]) (by simp [sizeMax]) (dense2_lists _ _ _ _), rfl, rfl, ?_⟩
  intro i j
  fin_cases i <;> fin_cases j <;> rfl

/-- C172: the exception is real.  Here a product underflows, and half the system gives another iterate. -/
theorem c172_underflow (sqrt : Num binary64 → Num binary64) :
    ∃ (m : Sparse (Num binary64)) (a : Fin 2 → Fin 2 → ℚ) (x y y' : Fin 2 → ℚ), Square m (fun i j => fin (a i j)) ∧
      (∀ i j, binary64 (a i j) = .fin (a i j)) ∧ (∀ i, a i i ≠ 0) ∧ (∀ i j, |2 ^ 1 * a i j| < 2 ^ 1024) ∧
      step (floats binary64 sqrt) .gaussSeidel ⟨⟨0, 1, fin 0⟩, [], fin 1⟩ (m.scale (fin (2 ^ 1))) (vec fun _ : Fin 2 => fin (2 ^ 1 * 0))
        (vec fun i => fin (x i), []) = .ok (vec fun i => fin (y i), []) ∧
      step (floats binary64 sqrt) .gaussSeidel ⟨⟨0, 1, fin 0⟩, [], fin 1⟩ m (vec fun _ : Fin 2 => fin 0) (vec fun i => fin (x i), []) =
        .ok (vec fun i => fin (y' i), []) ∧ y 0 ≠ y' 0 := by
  refine ⟨dense2 (fin (1 / 2 ^ 100)) (fin (3 / 2 ^ 600)) (fin 0) (fin 1), ![![1 / 2 ^ 100, 3 / 2 ^ 600], ![0, 1]], ![0, 1 / 2 ^ 475],
    ![-3 / 2 ^ 975, 0], ![-1 / 2 ^ 973, 0], dense2_fin _ _ _ _, by decide +kernel, by decide +kernel, by decide +kernel, ?_, ?_,
    by decide +kernel⟩
  · have : step (floats binary64 id) .gaussSeidel ⟨⟨0, 1, fin 0⟩, [], fin 1⟩
        ((dense2 (fin (1 / 2 ^ 100)) (fin (3 / 2 ^ 600)) (fin 0) (fin 1) : Sparse (Num binary64)).scale (fin (2 ^ 1)))
        (vec fun _ : Fin 2 => fin (2 ^ 1 * 0)) (vec fun i => fin ((![0, 1 / 2 ^ 475] : Fin 2 → ℚ) i), []) =
        .ok (vec fun i => fin ((![-3 / 2 ^ 975, 0] : Fin 2 → ℚ) i), []) := by decide +kernel
    exact this
  · have : step (floats binary64 id) .gaussSeidel ⟨⟨0, 1, fin 0⟩, [], fin 1⟩
        (dense2 (fin (1 / 2 ^ 100)) (fin (3 / 2 ^ 600)) (fin 0) (fin 1) : Sparse (Num binary64))
        (vec fun _ : Fin 2 => fin 0) (vec fun i => fin ((![0, 1 / 2 ^ 475] : Fin 2 → ℚ) i), []) =
        .ok (vec fun i => fin ((![-1 / 2 ^ 973, 0] : Fin 2 → ℚ) i), []) := by decide +kernel
    exact this

/-- The hypotheses are met by a system whose quotients are rounded, times eight. -/
example (sqrt : Num binary64 → Num binary64) : ∃ v',
    times (step (floats binary64 sqrt) .gaussSeidel ⟨⟨0, 1, fin 0⟩, [], fin 1⟩ (dense2 (fin 3) (fin (-1)) (fin (-1)) (fin 3))
      (vec fun _ : Fin 2 => fin 1)) 1 (vec fun _ : Fin 2 => fin 0, []) =
    .ok (vec fun i : Fin 2 => fin (![near64 (1 / 3), near64 (near64 (1 + near64 (1 / 3)) / 3)] i), v') := by
  have h : times (step (floats binary64 sqrt) .gaussSeidel ⟨⟨0, 1, fin 0⟩, [], fin 1⟩
      ((dense2 (fin 3) (fin (-1)) (fin (-1)) (fin 3) : Sparse (Num binary64)).scale (fin (2 ^ 3))) (vec fun _ : Fin 2 => fin (2 ^ 3 * 1))) 1
      (vec fun _ : Fin 2 => fin 0, []) =
      .ok (vec fun i : Fin 2 => fin (![near64 (1 / 3), near64 (near64 (1 + near64 (1 / 3)) / 3)] i), []) := by
    have : times (step (floats binary64 id) .gaussSeidel ⟨⟨0, 1, fin 0⟩, [], fin 1⟩
      ((dense2 (fin 3) (fin (-1)) (fin (-1)) (fin 3) : Sparse (Num binary64)).scale (fin (2 ^ 3))) (vec fun _ : Fin 2 => fin (2 ^ 3 * 1))) 1
      (vec fun _ : Fin 2 => fin 0, []) =
      .ok (vec fun i : Fin 2 => fin (![near64 (1 / 3), near64 (near64 (1 + near64 (1 / 3)) / 3)] i), []) := by decide +kernel
    exact this
  refine c172_power_of_two (by simp) _ _ (dense2_fin _ _ _ _) (by decide +kernel) (by decide +kernel) (fun _ => 1) (fun _ => 0) _
    (by decide +kernel) 3 (by decide +kernel) [] [] _ (by simp) (by simp) 1 h ?_
  have inj : ∀ {u v : Fin 2 → ℚ}, (vec fun i => (fin (u i) : Num binary64)) = (vec fun i => fin (v i)) → u = v := fun h =>
    funext fun i => (fin_inj.mp (congrFun (vec_inj.mp h) i))
  intro l hl z u hz
  rcases Nat.le_one_iff_eq_zero_or_eq_one.mp hl with rfl | rfl
  · cases inj (Prod.mk.inj (Out.ok.inj hz)).1
    decide +kernel
  · rw [h] at hz
    cases inj (Prod.mk.inj (Out.ok.inj hz)).1
    decide +kernel

end Disa.Props
