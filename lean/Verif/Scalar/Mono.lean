import Verif.Scalar.Root
import Verif.Props.Round

/-!
# Rounding to doubles is monotone
-/

namespace Disa

open Props

theorem nearestEven_mono {x y : ℚ} (h : x ≤ y) : nearestEven x ≤ nearestEven y := by
  have hf : ⌊x⌋ ≤ ⌊y⌋ := Int.floor_mono h
  rcases hf.lt_or_eq with hlt | heq
  · have h1 : nearestEven x ≤ ⌊x⌋ + 1 := nearestEven_le (by push_cast; exact (Int.lt_floor_add_one x).le)
    have h2 : ⌊y⌋ ≤ nearestEven y := nearestEven_ge (Int.floor_le y)
    omega
  · unfold nearestEven
    rw [heq]
    have : x - ⌊y⌋ ≤ y - ⌊y⌋ := by linarith
    generalize x - (⌊y⌋ : ℚ) = a at *
    generalize y - (⌊y⌋ : ℚ) = b at *
    split_ifs <;> first | omega | linarith

/-- The rounded number before it is found to be too large. -/
def near64 (q : ℚ) : ℚ := nearestEven (q / 2 ^ lastDigit q) * 2 ^ lastDigit q

theorem near64_le {q : ℚ} {k e : ℤ} (he : lastDigit q ≤ e) (h : q ≤ k * 2 ^ e) : near64 q ≤ k * 2 ^ e := by
  have hE : (0 : ℚ) < 2 ^ lastDigit q := zpow_pos (by norm_num) _
  obtain ⟨d, hd⟩ := Int.eq_ofNat_of_zero_le (show 0 ≤ e - lastDigit q by omega)
  have hK : (k : ℚ) * 2 ^ e = ((k * 2 ^ d : ℤ) : ℚ) * 2 ^ lastDigit q := by
    rw [show e = d + lastDigit q by omega, zpow_add₀ (by norm_num), zpow_natCast]
    push_cast
    ring
  rw [hK] at h ⊢
  refine mul_le_mul_of_nonneg_right ?_ hE.le
  exact_mod_cast nearestEven_le (by rw [div_le_iff₀ hE]; exact h)

theorem near64_ge {q : ℚ} {k e : ℤ} (he : lastDigit q ≤ e) (h : k * 2 ^ e ≤ q) : k * 2 ^ e ≤ near64 q := by
  have hE : (0 : ℚ) < 2 ^ lastDigit q := zpow_pos (by norm_num) _
  obtain ⟨d, hd⟩ := Int.eq_ofNat_of_zero_le (show 0 ≤ e - lastDigit q by omega)
  have hK : (k : ℚ) * 2 ^ e = ((k * 2 ^ d : ℤ) : ℚ) * 2 ^ lastDigit q := by
    rw [show e = d + lastDigit q by omega, zpow_add₀ (by norm_num), zpow_natCast]
    push_cast
    ring
  rw [hK] at h ⊢
  refine mul_le_mul_of_nonneg_right ?_ hE.le
  exact_mod_cast nearestEven_ge (by rw [le_div_iff₀ hE]; exact h)

theorem near64_nonpos {q : ℚ} (h : q ≤ 0) : near64 q ≤ 0 := by
  have := near64_le (q := q) (k := 0) le_rfl (by simpa using h)
  simpa using this

theorem near64_nonneg {q : ℚ} (h : 0 ≤ q) : 0 ≤ near64 q := by
  have := near64_ge (q := q) (k := 0) le_rfl (by simpa using h)
  simpa using this

theorem near64_mono {p q : ℚ} (h : p ≤ q) : near64 p ≤ near64 q := by
  by_cases hp0 : p = 0
  · subst hp0
    exact (near64_nonpos le_rfl).trans (near64_nonneg h)
  by_cases hq0 : q = 0
  · subst hq0
    exact (near64_nonpos h).trans (near64_nonneg le_rfl)
  have hp : 0 < |p| := abs_pos.mpr hp0
  have hq : 0 < |q| := abs_pos.mpr hq0
  rcases lt_trichotomy (lastDigit p) (lastDigit q) with hl | hl | hl
  · have hle : Int.log 2 |p| < Int.log 2 |q| := by unfold lastDigit at hl; omega
    have hL : lastDigit q = Int.log 2 |q| - 52 := by unfold lastDigit at hl ⊢; omega
    have h1 : |p| < 2 ^ Int.log 2 |q| := (Int.lt_zpow_iff_log_lt (by norm_num) hp).mpr hle
    have h2 : (2 : ℚ) ^ Int.log 2 |q| ≤ |q| := Int.zpow_log_le_self (by norm_num) hq
    have hqpos : 0 < q := by
      by_contra hc
      have hc : q ≤ 0 := not_lt.mp hc
      rw [abs_of_nonpos hc] at h2
      rw [abs_of_nonpos (h.trans hc), abs_of_nonpos hc] at h1
      linarith
    have e : ((2 ^ 52 : ℤ) : ℚ) * 2 ^ lastDigit q = 2 ^ Int.log 2 |q| := by
      rw [hL, zpow_sub₀ (by norm_num)]
      push_cast
      norm_num
      field_simp
    have h3 := near64_le (q := p) (k := 2 ^ 52) hl.le (by rw [e]; exact (le_abs_self p).trans h1.le)
    have h4 := near64_ge (q := q) (k := 2 ^ 52) le_rfl (by rw [e]; rwa [abs_of_pos hqpos] at h2 ⊢)
    exact h3.trans h4
  · unfold near64
    rw [hl]
    have hE : (0 : ℚ) < 2 ^ lastDigit q := zpow_pos (by norm_num) _
    refine mul_le_mul_of_nonneg_right ?_ hE.le
    exact_mod_cast nearestEven_mono (div_le_div_of_nonneg_right h hE.le)
  · have hle : Int.log 2 |q| < Int.log 2 |p| := by unfold lastDigit at hl; omega
    have hL : lastDigit p = Int.log 2 |p| - 52 := by unfold lastDigit at hl ⊢; omega
    have h1 : |q| < 2 ^ Int.log 2 |p| := (Int.lt_zpow_iff_log_lt (by norm_num) hq).mpr hle
    have h2 : (2 : ℚ) ^ Int.log 2 |p| ≤ |p| := Int.zpow_log_le_self (by norm_num) hp
    have hpneg : p < 0 := by
      by_contra hc
      have hc : 0 ≤ p := not_lt.mp hc
      rw [abs_of_nonneg (hc.trans h)] at h1
      rw [abs_of_nonneg hc] at h1 h2
      linarith
    have e : ((-2 ^ 52 : ℤ) : ℚ) * 2 ^ lastDigit p = -2 ^ Int.log 2 |p| := by
      rw [hL, zpow_sub₀ (by norm_num)]
      push_cast
      norm_num
      field_simp
    have h3 := near64_le (q := p) (k := -2 ^ 52) le_rfl (by
      rw [e]
      rw [abs_of_neg hpneg] at h2 ⊢
      linarith)
    have h4 := near64_ge (q := q) (k := -2 ^ 52) hl.le (by rw [e]; linarith [neg_abs_le q])
    exact h3.trans h4

theorem binary64_near (q : ℚ) : binary64 q = if |near64 q| < 2 ^ (1024 : ℕ) then .fin (near64 q) else .inf (decide (q < 0)) := rfl

/-- Rounding is monotone, also when it overflows. -/
theorem binary64_mono {p q : ℚ} (h : p ≤ q) : Fl.le (binary64 p) (binary64 q) = true := by
  have hm := near64_mono h
  rw [binary64_near, binary64_near]
  have hpos : (0 : ℚ) < 2 ^ (1024 : ℕ) := by positivity
  generalize (2 : ℚ) ^ (1024 : ℕ) = B at *
  split
  · rename_i h1
    split
    · simp only [Fl.le, Fl.lt, Fl.eq, Bool.or_eq_true, decide_eq_true_eq]
      exact hm.lt_or_eq
    · rename_i h2
      have hq : ¬ q < 0 := fun hq => h2 (by
        have := near64_nonpos hq.le
        rw [abs_lt] at h1 ⊢
        constructor <;> linarith)
      simp [Fl.le, Fl.lt, hq]
  · rename_i h1
    by_cases hp : p < 0
    · split <;> by_cases hq : q < 0 <;> simp [Fl.le, Fl.lt, Fl.eq, hp, hq]
    · have hp' : 0 ≤ p := not_lt.mp hp
      have h3 := near64_nonneg hp'
      rw [abs_of_nonneg h3] at h1
      rw [if_neg (by rw [abs_of_nonneg (h3.trans hm)]; linarith)]
      have hq : ¬ q < 0 := by linarith
      simp [Fl.le, Fl.eq, hp, hq]

theorem binary64_fin_mono {p q p' q' : ℚ} (h : p ≤ q) (h1 : binary64 p = .fin p') (h2 : binary64 q = .fin q') : p' ≤ q' := by
  have := binary64_mono h
  rw [h1, h2] at this
  simp only [Fl.le, Fl.lt, Fl.eq, Bool.or_eq_true, decide_eq_true_eq] at this
  rcases this with h | h
  · exact h.le
  · exact h.le

theorem near64_zero : near64 0 = 0 := le_antisymm (near64_nonpos le_rfl) (near64_nonneg le_rfl)

theorem near64_multiple {q : ℚ} {k e : ℤ} (he : lastDigit q ≤ e) (h : q = k * 2 ^ e) : near64 q = q := by
  have h1 := near64_le he h.le
  have h2 := near64_ge he h.ge
  rw [← h] at h1 h2
  exact le_antisymm h1 h2

theorem near64_idem (q : ℚ) : near64 (near64 q) = near64 q := by
  by_cases hq0 : q = 0
  · subst hq0
    rw [near64_zero, near64_zero]
  have hq : 0 < |q| := abs_pos.mpr hq0
  by_cases hr0 : near64 q = 0
  · rw [hr0, near64_zero]
  have hr : 0 < |near64 q| := abs_pos.mpr hr0
  by_cases hl : lastDigit (near64 q) ≤ lastDigit q
  · exact near64_multiple (k := nearestEven (q / 2 ^ lastDigit q)) hl rfl
  have hl : lastDigit q < lastDigit (near64 q) := not_le.mp hl
  have h1 : |q| < 2 ^ (lastDigit q + 53) := by
    rw [← Nat.cast_ofNat (R := ℚ), Int.lt_zpow_iff_log_lt (by norm_num) hq]
    unfold lastDigit
    omega
  have hp : ((2 ^ 52 : ℤ) : ℚ) * 2 ^ (lastDigit q + 1) = 2 ^ (lastDigit q + 53) := by
    rw [show lastDigit q + 53 = 52 + (lastDigit q + 1) by ring, zpow_add₀ (by norm_num) 52 (lastDigit q + 1)]
    norm_num
  have hn : ((-2 ^ 52 : ℤ) : ℚ) * 2 ^ (lastDigit q + 1) = -2 ^ (lastDigit q + 53) := by
    rw [← hp]
    push_cast
    ring
  have h2 := near64_le (q := q) (k := 2 ^ 52) (e := lastDigit q + 1) (by omega) (by rw [hp]; linarith [(abs_lt.mp h1).2])
  have h3 := near64_ge (q := q) (k := -2 ^ 52) (e := lastDigit q + 1) (by omega) (by rw [hn]; linarith [(abs_lt.mp h1).1])
  rw [hp] at h2
  rw [hn] at h3
  have h4 : (2 : ℚ) ^ (lastDigit q + 53) ≤ |near64 q| := by
    have h5 : lastDigit q + 53 ≤ Int.log 2 |near64 q| := by
      unfold lastDigit at hl ⊢
      omega
    rw [← Nat.cast_ofNat (R := ℚ)]
    exact (Int.zpow_le_iff_le_log (by norm_num) hr).mpr h5
  have h5 : |near64 q| = 2 ^ (lastDigit q + 53) := le_antisymm (abs_le.mpr ⟨h3, h2⟩) h4
  have h6 : lastDigit (near64 q) ≤ lastDigit q + 1 := by
    have : Int.log 2 |near64 q| = lastDigit q + 53 := by
      rw [h5, ← Nat.cast_ofNat (R := ℚ)]
      exact Int.log_zpow (by norm_num) _
    have h7 : -1074 ≤ lastDigit q := le_max_right _ _
    rw [show lastDigit (near64 q) = max (Int.log 2 |near64 q| - 52) (-1074) from rfl, this]
    omega
  rcases abs_choice (near64 q) with h7 | h7
  · exact near64_multiple (k := 2 ^ 52) h6 (by rw [hp, ← h5, h7])
  · exact near64_multiple (k := -2 ^ 52) h6 (by rw [hn, ← h5, h7, neg_neg])

/-- Results are doubles, which are not rounded again. -/
theorem binary64_idem {q r : ℚ} (h : binary64 q = .fin r) : binary64 r = .fin r := by
  rw [binary64_near] at h
  split at h
  · rename_i h1
    rw [Fl.fin.injEq] at h
    subst h
    rw [binary64_near, near64_idem, if_pos h1]
  · cases h

/-- Rounding does not go past a double. -/
theorem binary64_between {q r d : ℚ} (h : binary64 q = .fin r) (hd : binary64 d = .fin d) : (d ≤ q → d ≤ r) ∧ (q ≤ d → r ≤ d) :=
  ⟨fun hq => binary64_fin_mono hq hd h, fun hq => binary64_fin_mono hq h hd⟩

end Disa
