import Verif.Solver.LuFloat
import Verif.Props.Round
import Mathlib.Tactic.GCongr

/-!
# Growth of the elements in the direct solver with pivoting and rounded arithmetic
-/

namespace Disa.Lu

open Disa Spec Dense Num

variable {rnd : ℚ → Fl} {u η : ℚ}

/-- Errors that are small enough to be ignored next to `default_absolute`. -/
structure Fine (rnd : ℚ → Fl) (u η R : ℚ) : Prop where
  rounds : Rounds rnd u η
  u_small : u ≤ 1 / 2 ^ 10
  η_small : η ≤ 1 / 2 ^ 60
  range : Props.Range rnd R

theorem near_num {R : ℚ} (h : Fine rnd u η R) {e m : ℚ} (he : 0 ≤ e) (hm : 0 ≤ m) (hR : 2 * (e + m) + 1 ≤ R)
    (hg : (Num.arith rnd).nearlyGreater (fin e : Num rnd) (fin m) (Num.arith rnd).rel (Num.arith rnd).tol = .ok false) :
    e ≤ 9 / 8 * m + 17 / 16 * (1 / 2 ^ 46) := by
  have hu := h.rounds.u_nonneg
  have hη := h.rounds.η_nonneg
  have hus := h.u_small
  have hηs := h.η_small
  have h1 : (Num.arith rnd).le (Num.arith rnd).eps (Num.arith rnd).rel = true := by
    show Fl.le (.fin (1 / 2 ^ 52)) (.fin (65536 * (1 / 2 ^ 52))) = true
    decide +kernel
  have h2 : (Num.arith rnd).le (Num.arith rnd).rel (Num.arith rnd).one = true := by
    show Fl.le (.fin (65536 * (1 / 2 ^ 52))) (.fin 1) = true
    decide +kernel
  by_cases hlt : e < m
  · have : (0 : ℚ) < 1 / 2 ^ 46 := by positivity
    linarith
  have hem : m ≤ e := not_lt.mp hlt
  unfold Arith.nearlyGreater Arith.nearlyLessEqual at hg
  rw [show (Num.arith rnd).lt (fin e : Num rnd) (fin m) = false from by
    show Fl.lt (.fin e) (.fin m) = false
    simpa [Fl.lt] using hem, Props.nearlyEqual_ok _ h1 h2] at hg
  simp only [Bool.false_eq_true, if_false, Out.ok_bind, Out.pure_eq, Out.ok.injEq, Bool.not_eq_false'] at hg
  by_cases heq : e = m
  · subst heq
    have : (0 : ℚ) < 1 / 2 ^ 46 := by positivity
    linarith
  obtain ⟨d, hd⟩ := h.range (e + -m) (by rw [abs_le]; constructor <;> linarith)
  obtain ⟨w, hw⟩ := h.range (|e| + |m|) (by rw [abs_of_nonneg he, abs_of_nonneg hm, abs_le]; constructor <;> linarith)
  have ed := h.rounds.error _ _ hd
  have ew := h.rounds.error _ _ hw
  rw [abs_of_nonneg he, abs_of_nonneg hm, abs_of_nonneg (show (0 : ℚ) ≤ e + m by linarith)] at ew
  rw [abs_of_nonneg (show (0 : ℚ) ≤ e + -m by linarith)] at ed
  have hus' : u ≤ 1 / 1000 := hus.trans (by norm_num)
  have hτ : (1 / 2 ^ 60 : ℚ) = 1 / 2 ^ 46 * (1 / 2 ^ 14) := by norm_num
  rw [hτ] at hηs
  have hew : |w| ≤ (1 + u) * (e + m) + η := by
    have := abs_sub_abs_le_abs_sub w (e + m)
    rw [abs_of_nonneg (show (0 : ℚ) ≤ e + m by linarith)] at this
    linarith
  have hue : u * (e + m) ≤ 1 / 1000 * (e + m) := mul_le_mul_of_nonneg_right hus' (by linarith)
  have hud : u * (e + -m) ≤ 1 / 1000 * (e + -m) := mul_le_mul_of_nonneg_right hus' (by linarith)
  have hde : (e - m) - |d| ≤ 1 / 1000 * (e + -m) + η := by
    have := abs_sub_abs_le_abs_sub (e + -m) d
    rw [abs_of_nonneg (show (0 : ℚ) ≤ e + -m by linarith), abs_sub_comm] at this
    linarith
  -- the smaller of the sum and the largest number
  obtain ⟨w', hw', hww⟩ : ∃ w', (Num.arith rnd).stdMin (fin w) (Num.arith rnd).max = fin w' ∧ |w'| ≤ |w| := by
    unfold Arith.stdMin
    split
    · rename_i hlt'
      refine ⟨_, rfl, ?_⟩
      have : (2 - 1 / 2 ^ 52 : ℚ) * 2 ^ 1023 < w := by
        have : Fl.lt (.fin ((2 - 1 / 2 ^ 52) * 2 ^ 1023)) (.fin w) = true := hlt'
        simpa [Fl.lt] using this
      have h0 : (0 : ℚ) ≤ (2 - 1 / 2 ^ 52) * 2 ^ 1023 := mul_nonneg (by norm_num) (by positivity)
      rw [abs_of_nonneg h0]
      exact this.le.trans (le_abs_self w)
    · exact ⟨w, rfl, le_refl _⟩
  have hrel : (65536 * (1 / 2 ^ 52) : ℚ) ≤ 1 / 1000 := by norm_num
  have hrel0 : (0 : ℚ) ≤ 65536 * (1 / 2 ^ 52) := by norm_num
  have hτ1 : (1 / 2 ^ 46 : ℚ) ≤ 1 := by norm_num
  have hτ0 : (0 : ℚ) < 1 / 2 ^ 46 := by norm_num
  have hp : |65536 * (1 / 2 ^ 52) * w'| ≤ 1 / 1000 * |w| := by
    rw [abs_mul, abs_of_nonneg hrel0]
    exact mul_le_mul hrel hww (abs_nonneg _) (by norm_num)
  obtain ⟨v, hv⟩ := h.range (65536 * (1 / 2 ^ 52) * w') (by linarith)
  have ev := h.rounds.error _ _ hv
  have hvb : |v| ≤ 1 / 500 * |w| + η := by
    have h3 := abs_sub_abs_le_abs_sub v (65536 * (1 / 2 ^ 52) * w')
    have h4 : u * |65536 * (1 / 2 ^ 52) * w'| ≤ 1 * |65536 * (1 / 2 ^ 52) * w'| :=
      mul_le_mul_of_nonneg_right (by linarith) (abs_nonneg _)
    linarith
  -- the comparison
  have hc : |d| < 1 / 2 ^ 46 ∨ |d| < v := by
    have e1 : (Num.arith rnd).eq (fin e : Num rnd) (fin m) = false := by
      show decide (e = m) = false
      simpa using heq
    have e2 : (Num.arith rnd).sub (fin e : Num rnd) (fin m) = fin d := hd
    have e3 : (Num.arith rnd).add ((Num.arith rnd).abs (fin e : Num rnd)) ((Num.arith rnd).abs (fin m)) = fin w := hw
    have e4 : (Num.arith rnd).mul (Num.arith rnd).rel (fin w' : Num rnd) = fin v := hv
    rw [e1, e2, e3, hw', e4, Bool.false_or] at hg
    unfold Arith.stdMax at hg
    split at hg
    · right
      have : Fl.lt (.fin |d|) (.fin v) = true := hg
      simpa [Fl.lt] using this
    · left
      have : Fl.lt (.fin |d|) (.fin (64 * (1 / 2 ^ 52))) = true := hg
      have h5 : |d| < 64 * (1 / 2 ^ 52) := by simpa only [Fl.lt, decide_eq_true_eq] using this
      have h6 : (64 * (1 / 2 ^ 52) : ℚ) = 1 / 2 ^ 46 := by norm_num
      rwa [h6] at h5
  generalize (1 / 2 ^ 46 : ℚ) = τ at *
  rcases hc with hc | hc
  · linarith
  · have := le_abs_self v
    linarith

theorem greater_num {e m : ℚ}
    (hg : (Num.arith rnd).nearlyGreater (fin e : Num rnd) (fin m) (Num.arith rnd).rel (Num.arith rnd).tol = .ok true) : m < e := by
  have h1 : (Num.arith rnd).le (Num.arith rnd).eps (Num.arith rnd).rel = true := by
    show Fl.le (.fin (1 / 2 ^ 52)) (.fin (65536 * (1 / 2 ^ 52))) = true
    decide +kernel
  have h2 : (Num.arith rnd).le (Num.arith rnd).rel (Num.arith rnd).one = true := by
    show Fl.le (.fin (65536 * (1 / 2 ^ 52))) (.fin 1) = true
    decide +kernel
  by_contra hle
  have hle : e ≤ m := not_lt.mp hle
  unfold Arith.nearlyGreater Arith.nearlyLessEqual at hg
  rw [Props.nearlyEqual_ok _ h1 h2] at hg
  by_cases hlt : e < m
  · rw [show (Num.arith rnd).lt (fin e : Num rnd) (fin m) = true from by
      show Fl.lt (.fin e) (.fin m) = true
      simpa [Fl.lt] using hlt] at hg
    simp at hg
  · obtain rfl : e = m := le_antisymm hle (not_lt.mp hlt)
    rw [show (Num.arith rnd).lt (fin e : Num rnd) (fin e) = false from by
      show Fl.lt (.fin e) (.fin e) = false
      simp [Fl.lt], show (Num.arith rnd).eq (fin e : Num rnd) (fin e) = true from by
      show decide (e = e) = true
      simp] at hg
    simp at hg

/-- The pivot is at most slightly smaller than the other elements. -/
theorem search_num {R a : ℚ} (h : Fine rnd u η R) (hR : 4 * a + 1 ≤ R) {n : Nat} (M : Fin n → Fin n → Num rnd)
    (q : Fin n → ℚ) (i : Fin n) (hM : ∀ r, i ≤ r → M r i = fin (q r) ∧ |q r| ≤ a) :
    ∃ mx, ∃ m : Fin n, loop (n - i.1) (searchBody (Num.arith rnd) (mat M) i) (0, i.1) = .ok (fin mx, m.1) ∧ i ≤ m ∧
      (mx = |q m| ∨ mx = 0) ∧ ∀ r, i ≤ r → |q r| ≤ 9 / 8 * mx + 17 / 16 * (1 / 2 ^ 46) := by
  have hτ0 : (0 : ℚ) < 1 / 2 ^ 46 := by norm_num
  obtain ⟨s, h1, mx, m, rfl, h2, h3, h4, h5, h6⟩ := loop_inv (n := n - i.1) (body := searchBody (Num.arith rnd) (mat M) i.1)
    (s := ((0 : Num rnd), i.1))
    (fun k s => ∃ (mx : ℚ) (m : Fin n), s = (fin mx, m.1) ∧ i ≤ m ∧ 0 ≤ mx ∧ mx ≤ a ∧ (mx = |q m| ∨ mx = 0) ∧
      ∀ r : Fin n, i ≤ r → r.1 < i.1 + k → |q r| ≤ 9 / 8 * mx + 17 / 16 * (1 / 2 ^ 46))
    ⟨0, i, rfl, le_refl i, le_refl 0, (abs_nonneg _).trans (hM i le_rfl).2, .inr rfl,
      fun r hr hlt => by have : i.1 ≤ r.1 := hr; omega⟩ (by
      rintro k s hk ⟨mx, m, rfl, h2, h3, h4, h5, h6⟩
      have hr : i.1 + k < n := by omega
      have hir : i ≤ ⟨i.1 + k, hr⟩ := by show i.1 ≤ i.1 + k; omega
      obtain ⟨hq1, hq2⟩ := hM ⟨i.1 + k, hr⟩ hir
      have e1 : (Num.arith rnd).abs (M ⟨i.1 + k, hr⟩ ⟨i.1, i.2⟩) = fin |q ⟨i.1 + k, hr⟩| := by
        rw [show M ⟨i.1 + k, hr⟩ ⟨i.1, i.2⟩ = fin (q ⟨i.1 + k, hr⟩) from hq1]
        rfl
      obtain ⟨g, hg⟩ := nearlyGreater_num (rnd := rnd) (fin |q ⟨i.1 + k, hr⟩|) (fin mx)
      simp only [searchBody, rd2_mat M hr i.2, Out.ok_bind, e1]
      rw [hg]
      simp only [Out.ok_bind, Out.pure_eq]
      cases g with
      | true =>
        have hgt := greater_num hg
        refine ⟨_, rfl, |q ⟨i.1 + k, hr⟩|, ⟨i.1 + k, hr⟩, rfl, hir, abs_nonneg _, hq2, .inl rfl, ?_⟩
        intro r hir' hrk
        by_cases hrk' : r.1 < i.1 + k
        · have := h6 r hir' hrk'
          linarith
        · obtain rfl : r = ⟨i.1 + k, hr⟩ := Fin.ext (by show r.1 = i.1 + k; omega)
          have := abs_nonneg (q ⟨i.1 + k, hr⟩)
          linarith
      | false =>
        refine ⟨_, rfl, mx, m, rfl, h2, h3, h4, h5, ?_⟩
        intro r hir' hrk
        by_cases hrk' : r.1 < i.1 + k
        · exact h6 r hir' hrk'
        · obtain rfl : r = ⟨i.1 + k, hr⟩ := Fin.ext (by show r.1 = i.1 + k; omega)
          exact near_num h (abs_nonneg _) h3 (by linarith) hg)
  exact ⟨mx, m, h1, h2, h5, fun r hr => h6 r hr (by have := r.2; have := i.2; omega)⟩

/-- The pivot step, if the column is finite. -/
theorem pivotStep_num {R a : ℚ} (h : Fine rnd u η R) (hR : 4 * a + 1 ≤ R) {n : Nat} (M : Fin n → Fin n → Num rnd)
    (q : Fin n → ℚ) (p : Fin n → Nat) (i : Fin n) (hM : ∀ r, i ≤ r → M r i = fin (q r) ∧ |q r| ≤ a) :
    ∃ m : Fin n, i ≤ m ∧ pivotStep (Num.arith rnd) i (mat M, vec p) =
        .ok (mat fun r => M (Equiv.swap i m r), vec fun r => p (Equiv.swap i m r)) ∧
      ∀ r, i ≤ r → |q r| ≤ 9 / 8 * |q m| + 17 / 16 * (1 / 2 ^ 46) := by
  obtain ⟨mx, m, h1, h2, h3, h4⟩ := search_num h hR M q i hM
  refine ⟨m, h2, ?_, fun r hr => ?_⟩
  · unfold pivotStep
    simp only
    rw [sizeColumn_mat (by omega), h1, Out.ok_bind]
    simp only
    by_cases hm : m = i
    · subst hm
      simp
    · have hm' : (m.1 != i.1) = true := by simpa using fun h => hm (Fin.ext h)
      rw [if_pos hm', swapAt_ok, Out.ok_bind, mat_eq_vec, swapAt_ok]
      rfl
  · have := h4 r hr
    rcases h3 with h3 | h3
    · rwa [h3] at this
    · rw [h3] at this
      have := abs_nonneg (q m)
      linarith

/-- Before step `i` the multipliers are at most 5/2 and the other elements at most `a`. -/
def Bounded {n : Nat} (M : Fin n → Fin n → Num rnd) (i : Nat) (a : ℚ) : Prop :=
  ∀ r c, ∃ q, M r c = fin q ∧ |q| ≤ if c.1 < i ∧ c < r then 5 / 2 else a

theorem bounded_swap {n : Nat} {M : Fin n → Fin n → Num rnd} {i m : Fin n} {a : ℚ} (hM : Bounded M i.1 a) (hm : i ≤ m) :
    Bounded (fun r => M (Equiv.swap i m r)) i.1 a := by
  intro r c
  obtain ⟨q, h1, h2⟩ := hM (Equiv.swap i m r) c
  refine ⟨q, h1, h2.trans (le_of_eq ?_)⟩
  by_cases hr : r = i
  · subst hr
    rw [Equiv.swap_apply_left]
    have : (c.1 < r.1 ∧ c < m) ↔ (c.1 < r.1 ∧ c < r) := by
      constructor
      · exact fun h => ⟨h.1, h.1⟩
      · exact fun h => ⟨h.1, lt_of_lt_of_le h.2 hm⟩
    simp only [this]
  · by_cases hr' : r = m
    · subst hr'
      rw [Equiv.swap_apply_right]
      have : (c.1 < i.1 ∧ c < i) ↔ (c.1 < i.1 ∧ c < r) := by
        constructor
        · exact fun h => ⟨h.1, lt_of_lt_of_le h.2 hm⟩
        · exact fun h => ⟨h.1, h.1⟩
      simp only [this]
    · rw [Equiv.swap_apply_of_ne_of_ne hr hr']

/-- A step of the elimination. -/
theorem bounded_elim {R a : ℚ} (h : Fine rnd u η R) (hR : 4 * a + 3 ≤ R) {n : Nat} {M : Fin n → Fin n → Num rnd} {i : Fin n}
    {d : ℚ} (hM : Bounded M i.1 a) (hd : M i i = fin d) (hd1 : 1 / 2 ^ 46 ≤ |d|)
    (hp : ∀ r q, i < r → M r i = fin q → |q| ≤ 9 / 4 * |d|) : Bounded (elim M i) (i.1 + 1) (4 * a) := by
  have hu := h.rounds.u_nonneg
  have hη := h.rounds.η_nonneg
  have hus : u ≤ 1 / 1000 := h.u_small.trans (by norm_num)
  have hηs := h.η_small
  have hτ : (1 / 2 ^ 60 : ℚ) = 1 / 2 ^ 46 * (1 / 2 ^ 14) := by norm_num
  rw [hτ] at hηs
  have hτ1 : (1 / 2 ^ 46 : ℚ) ≤ 1 := by norm_num
  have hτ0 : (0 : ℚ) < 1 / 2 ^ 46 := by norm_num
  have hda : |d| ≤ a := by
    obtain ⟨q, h1, h2⟩ := hM i i
    rw [hd, fin_inj] at h1
    subst h1
    rwa [if_neg (by simp)] at h2
  have hd0 : d ≠ 0 := by
    rintro rfl
    rw [abs_zero] at hd1
    linarith
  have hdp : 0 < |d| := abs_pos.mpr hd0
  have hmul : ∀ r, i < r → ∃ l, M r i / M i i = fin l ∧ |l| ≤ 5 / 2 := by
    intro r hr
    obtain ⟨q, h1, h2⟩ := hM r i
    have hq := hp r q hr h1
    have hqd : |q / d| ≤ 9 / 4 := by
      rw [abs_div, div_le_iff₀ hdp]
      exact hq
    obtain ⟨l, hl⟩ := h.range (q / d) (by linarith)
    refine ⟨l, ?_, ?_⟩
    · rw [h1, hd]
      show Fl.div rnd (.fin q) (.fin d) = .fin l
      rw [Fl.div, if_neg hd0, hl]
    · have e := h.rounds.error _ _ hl
      have := abs_sub_abs_le_abs_sub l (q / d)
      have : u * |q / d| ≤ 1 / 1000 * (9 / 4) := mul_le_mul hus hqd (abs_nonneg _) (by norm_num)
      linarith
  intro r c
  obtain ⟨q, h1, h2⟩ := hM r c
  unfold elim
  by_cases hr : i < r
  · rw [if_pos hr]
    obtain ⟨l, hl1, hl2⟩ := hmul r hr
    by_cases hc : c = i
    · subst hc
      rw [if_pos rfl]
      exact ⟨l, hl1, by rw [if_pos ⟨by omega, hr⟩]; exact hl2⟩
    · rw [if_neg hc]
      have hc' : c.1 ≠ i.1 := fun h => hc (Fin.ext h)
      by_cases hic : i < c
      · have hic' : i.1 < c.1 := hic
        rw [if_pos hic, if_neg (by omega)]
        rw [if_neg (by omega)] at h2
        obtain ⟨w, h3, h4⟩ := hM i c
        rw [if_neg (by omega)] at h4
        have hlw : |l * w| ≤ 5 / 2 * a := by
          rw [abs_mul]
          exact mul_le_mul hl2 h4 (abs_nonneg _) (by norm_num)
        have ha : 0 ≤ a := hdp.le.trans hda
        obtain ⟨v, hv⟩ := h.range (l * w) (by linarith)
        have e1 := h.rounds.error _ _ hv
        have g1 := abs_sub_abs_le_abs_sub v (l * w)
        have g2 : u * |l * w| ≤ 1 / 1000 * (5 / 2 * a) := mul_le_mul hus hlw (abs_nonneg _) (by norm_num)
        have g3 : |q - v| ≤ |q| + |v| := abs_sub q v
        obtain ⟨x, hx⟩ := h.range (q - v) (by linarith)
        have e2 := h.rounds.error _ _ hx
        have g4 := abs_sub_abs_le_abs_sub x (q - v)
        have g5 : u * |q - v| ≤ 1 / 1000 * |q - v| := mul_le_mul_of_nonneg_right hus (abs_nonneg _)
        refine ⟨x, ?_, by linarith⟩
        rw [hl1, h1, h3, show (fin l : Num rnd) * fin w = fin v from hv]
        exact (Num.sub_eq (rnd := rnd)).trans hx
      · have hic' : ¬ i.1 < c.1 := hic
        rw [if_neg hic]
        refine ⟨q, h1, ?_⟩
        have hcr : c < r := by
          have : i.1 < r.1 := hr
          show c.1 < r.1
          omega
        rw [if_pos ⟨by omega, hcr⟩] at h2 ⊢
        exact h2
  · rw [if_neg hr]
    refine ⟨q, h1, ?_⟩
    have hr' : ¬ i.1 < r.1 := hr
    have hiff : (c.1 < i.1 ∧ c < r) ↔ (c.1 < i.1 + 1 ∧ c < r) := by
      show (c.1 < i.1 ∧ c.1 < r.1) ↔ (c.1 < i.1 + 1 ∧ c.1 < r.1)
      omega
    rw [← if_congr hiff rfl rfl]
    refine h2.trans ?_
    split
    · exact le_rfl
    · have ha : 0 ≤ a := hdp.le.trans hda
      linarith

/-- With pivoting and a tolerance of at least `default_absolute` the factors are finite and not too large. -/
theorem factorise_growth {R : ℚ} (h : Fine rnd u η R) (s s' : Lu (Num rnd)) {t : ℚ} (ht : 1 / 2 ^ 46 ≤ t)
    (hs : s.tol = fin t) {n : Nat} {a : ℚ} (A : Fin n → Fin n → ℚ) (ha : ∀ r c, |A r c| ≤ a) (hR : 4 ^ (n + 1) * a + 3 ≤ R)
    (hf : factorise (Num.arith rnd) true s (mat fun r c => (fin (A r c) : Num rnd)) = .ok (s', true)) :
    ∃ M : Fin n → Fin n → ℚ, s'.lu = mat (fun r c => (fin (M r c) : Num rnd)) ∧ (∀ r c, c < r → |M r c| ≤ 5 / 2) ∧
      (∀ r c, r ≤ c → |M r c| ≤ 4 ^ n * a) ∧ ∀ k, t ≤ |M k k| := by
  obtain ⟨_, h2, M, p, ok, rfl, h3⟩ := loop_inv (n := n) (body := factoriseBody (Num.arith rnd) true s.tol)
    (s := (mat (fun r c => (fin (A r c) : Num rnd)), List.range (sizeColumn (mat fun r c => (fin (A r c) : Num rnd))), true))
    (fun i t' => ∃ (M : Fin n → Fin n → Num rnd) (p : Fin n → Nat) (ok : Bool), t' = (mat M, vec p, ok) ∧
      (ok = true → Bounded M i (4 ^ i * a) ∧ ∀ k : Fin n, k.1 < i → ∀ q, M k k = fin q → t ≤ |q|))
    ⟨_, fun r => r.1, true, by rw [sizeColumn_mat (by omega), vec_range], fun _ => ⟨fun r c => ⟨_, rfl, by
      rw [if_neg (by omega)]; simpa using ha r c⟩, fun k hk => absurd hk (Nat.not_lt_zero _)⟩⟩ (by
      rintro i t' hi ⟨M, p, ok, rfl, h3⟩
      cases ok with
      | false => exact ⟨_, rfl, M, p, false, rfl, by simp⟩
      | true =>
        obtain ⟨h4, h5⟩ := h3 rfl
        have ha0 : 0 ≤ a := (abs_nonneg _).trans (ha ⟨i, hi⟩ ⟨i, hi⟩)
        have hpow : (4 : ℚ) * (4 ^ i * a) ≤ 4 ^ (n + 1) * a := by
          have : (4 : ℚ) ^ (i + 1) ≤ 4 ^ (n + 1) := pow_le_pow_right₀ (by norm_num) (by omega)
          have := mul_le_mul_of_nonneg_right this ha0
          rw [pow_succ] at this
          linarith
        have hcol : ∀ r : Fin n, ∃ q, (⟨i, hi⟩ ≤ r → M r ⟨i, hi⟩ = fin q ∧ |q| ≤ 4 ^ i * a) := by
          intro r
          obtain ⟨q, q1, q2⟩ := h4 r ⟨i, hi⟩
          exact ⟨q, fun _ => ⟨q1, by rwa [if_neg (by simp)] at q2⟩⟩
        choose q hq using hcol
        obtain ⟨m, hm, hsw, hnear⟩ := pivotStep_num h (by linarith) M q p ⟨i, hi⟩ hq
        have hB := bounded_swap h4 hm
        have hqm := (hq m hm).1
        have hpiv : M (Equiv.swap ⟨i, hi⟩ m ⟨i, hi⟩) ⟨i, hi⟩ = fin (q m) := by rw [Equiv.swap_apply_left, hqm]
        have e1 : (if true then pivotStep (Num.arith rnd) i (mat M, vec p) else pure (mat M, vec p)) =
            .ok (mat fun r => M (Equiv.swap ⟨i, hi⟩ m r), vec fun r => p (Equiv.swap ⟨i, hi⟩ m r)) := hsw
        have hdiag : ∀ k : Fin n, k.1 < i → Equiv.swap ⟨i, hi⟩ m k = k := by
          intro k hk
          apply Equiv.swap_apply_of_ne_of_ne
          · rintro rfl; exact absurd hk (by simp)
          · rintro rfl
            have : i ≤ k.1 := hm
            omega
        by_cases hsmall : |q m| < t
        · refine ⟨(mat fun r => M (Equiv.swap ⟨i, hi⟩ m r), vec fun r => p (Equiv.swap ⟨i, hi⟩ m r), false), ?_, _, _, false, rfl,
            by simp⟩
          have hlt : (Num.arith rnd).lt ((Num.arith rnd).abs (fin (q m) : Num rnd)) s.tol = true := by
            rw [hs]
            show decide (|q m| < t) = true
            simpa using hsmall
          unfold factoriseBody
          simp only [if_true] at e1
          simp only [if_true, e1, Out.ok_bind, rd2_mat _ hi hi, hpiv, hlt]
          rfl
        · refine ⟨(mat (elim (fun r => M (Equiv.swap ⟨i, hi⟩ m r)) ⟨i, hi⟩), vec fun r => p (Equiv.swap ⟨i, hi⟩ m r), true), ?_, _, _,
            true, rfl, fun _ => ⟨?_, ?_⟩⟩
          · have hlt : (Num.arith rnd).lt ((Num.arith rnd).abs (fin (q m) : Num rnd)) s.tol = false := by
              rw [hs]
              show decide (|q m| < t) = false
              simpa using hsmall
            unfold factoriseBody
            simp only [if_true] at e1
            simp only [if_true, e1, Out.ok_bind, rd2_mat _ hi hi, hpiv, hlt, Bool.false_eq_true, if_false, mat_length]
            have := eliminate_ok (fun r => M (Equiv.swap ⟨i, hi⟩ m r)) ⟨i, hi⟩
            simp only at this
            rw [this]
            rfl
          · have := bounded_elim h (by linarith) (i := ⟨i, hi⟩) hB hpiv (ht.trans (not_lt.mp hsmall)) (by
              intro r q' hr hr'
              have hge : (⟨i, hi⟩ : Fin n) ≤ Equiv.swap ⟨i, hi⟩ m r := by
                by_contra hlt
                have h6 : (Equiv.swap (⟨i, hi⟩ : Fin n) m r).1 < i := not_le.mp hlt
                have h7 := hdiag _ h6
                rw [Equiv.swap_apply_self] at h7
                rw [← h7] at h6
                have : i < r.1 := hr
                omega
              obtain ⟨h8, -⟩ := hq _ hge
              rw [h8, fin_inj] at hr'
              subst hr'
              have h9 := hnear _ hge
              have h10 := ht.trans (not_lt.mp hsmall)
              linarith)
            rw [pow_succ, mul_comm ((4 : ℚ) ^ i) 4, mul_assoc]
            exact this
          · intro k hk q' hq'
            rw [elim_same _ (.inl (show k.1 ≤ i by omega))] at hq'
            by_cases hki : k.1 < i
            · simp only [hdiag k hki] at hq'
              exact h5 k hki q' hq'
            · obtain rfl : k = ⟨i, hi⟩ := Fin.ext (by show k.1 = i; omega)
              rw [hpiv, fin_inj] at hq'
              subst hq'
              exact not_lt.mp hsmall)
  unfold factorise at hf
  rw [mat_length] at hf
  simp only [if_true] at hf
  rw [h2, Out.ok_bind] at hf
  simp only [Out.pure_eq, Out.ok.injEq, Prod.mk.injEq] at hf
  obtain ⟨rfl, rfl⟩ := hf
  obtain ⟨h4, h5⟩ := h3 rfl
  choose Q hQ1 hQ2 using h4
  refine ⟨Q, ?_, ?_, ?_, fun k => h5 k k.2 _ (hQ1 k k)⟩
  · show mat M = _
    congr 1
    funext r c
    exact hQ1 r c
  · intro r c hrc
    have := hQ2 r c
    rwa [if_pos ⟨c.2, hrc⟩] at this
  · intro r c hrc
    have := hQ2 r c
    rwa [if_neg (fun h => absurd h.2 (not_lt.mpr hrc))] at this

end Disa.Lu
