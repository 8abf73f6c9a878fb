import Verif.Props.LuAccurate
import Verif.Props.SolveSame

/-!
# Property C208: pivoting does not interchange the equations of matrices whose columns are dominant
-/

namespace Disa.Props

open Disa Spec Dense Num Lu

/-! ### Columns -/

/-- What rounding changes in a column in a step of the elimination. -/
theorem column_change {ι : Type} (s : Finset ι) {m q a l p : ι → ℚ} {d w u η A N : ℚ} (hu : 0 ≤ u) (hu' : u ≤ 1 / 8) (hη : 0 ≤ η)
    (hd : d ≠ 0) (hl : ∀ r ∈ s, |l r - a r / d| ≤ u * |a r / d| + η) (hp : ∀ r ∈ s, |p r - l r * w| ≤ u * |l r * w| + η)
    (hq : ∀ r ∈ s, |q r - (m r - p r)| ≤ u * |m r - p r| + η) (ha : ∑ r ∈ s, |a r| ≤ |d|) (hw : |w| ≤ A)
    (hm : ∑ r ∈ s, |m r| ≤ 2 * A) (hN : (s.card : ℚ) ≤ N) :
    ∑ r ∈ s, |q r - (m r - a r / d * w)| ≤ 6 * u * A + 3 * η * (N * (A + 1)) := by
  have hd0 : 0 < |d| := abs_pos.mpr hd
  have hA : 0 ≤ A := (abs_nonneg _).trans hw
  have hN0 : 0 ≤ N := le_trans (by positivity) hN
  have hρ : ∑ r ∈ s, |a r / d| ≤ 1 := by
    calc ∑ r ∈ s, |a r / d| = (∑ r ∈ s, |a r|) / |d| := by
          rw [Finset.sum_div]
          exact Finset.sum_congr rfl fun r _ => abs_div _ _
      _ ≤ 1 := by rw [div_le_one hd0]; exact ha
  have hρ0 : 0 ≤ ∑ r ∈ s, |a r / d| := Finset.sum_nonneg fun _ _ => abs_nonneg _
  have hL : ∑ r ∈ s, |l r| ≤ 1 + u + N * η := by
    have h1 : ∀ r ∈ s, |l r| ≤ |a r / d| + (u * |a r / d| + η) := fun r hr => by
      have := abs_add_le (l r - a r / d) (a r / d)
      rw [sub_add_cancel] at this
      linarith [hl r hr]
    have h2 := Finset.sum_le_sum h1
    simp only [Finset.sum_add_distrib, ← Finset.mul_sum, Finset.sum_const, nsmul_eq_mul] at h2
    have h3 := mul_le_mul_of_nonneg_left hρ hu
    have h4 := mul_le_mul_of_nonneg_right hN hη
    linarith
  have hL0 : 0 ≤ ∑ r ∈ s, |l r| := Finset.sum_nonneg fun _ _ => abs_nonneg _
  have hpt : ∀ r ∈ s, |q r - (m r - a r / d * w)| ≤ (u * |a r / d| + η) * |w| + (1 + u) * (u * (|l r| * |w|) + η) +
      u * (|m r| + |l r| * |w|) + η := by
    intro c hc
    have h1 := hp c hc
    have h2 := hq c hc
    rw [abs_mul] at h1
    have h3 : |m c - p c| ≤ |m c| + (|l c| * |w| + (u * (|l c| * |w|) + η)) := by
      have h4 := abs_sub (m c) (p c)
      have h5 := abs_add_le (p c - l c * w) (l c * w)
      rw [sub_add_cancel, abs_mul] at h5
      linarith
    have h4 := mul_le_mul_of_nonneg_left h3 hu
    have h5 : |(l c - a c / d) * w| ≤ (u * |a c / d| + η) * |w| := by
      rw [abs_mul]
      exact mul_le_mul_of_nonneg_right (hl c hc) (abs_nonneg _)
    have e : q c - (m c - a c / d * w) = (q c - (m c - p c)) + -(p c - l c * w) + -((l c - a c / d) * w) := by ring
    rw [e]
    have h6 := abs_add_three (q c - (m c - p c)) (-(p c - l c * w)) (-((l c - a c / d) * w))
    rw [abs_neg, abs_neg] at h6
    nlinarith
  have hsum := Finset.sum_le_sum hpt
  have e : ∑ c ∈ s, ((u * |a c / d| + η) * |w| + (1 + u) * (u * (|l c| * |w|) + η) + u * (|m c| + |l c| * |w|) + η) =
      u * ((∑ c ∈ s, |a c / d|) * |w|) + (s.card : ℚ) * (η * |w|) + (1 + u) * (u * ((∑ c ∈ s, |l c|) * |w|) + (s.card : ℚ) * η) +
        u * (∑ c ∈ s, |m c| + (∑ c ∈ s, |l c|) * |w|) + (s.card : ℚ) * η := by
    simp only [Finset.sum_add_distrib, ← Finset.mul_sum, ← Finset.sum_mul, Finset.sum_const, nsmul_eq_mul, add_mul]
    ring
  rw [e] at hsum
  have w0 := abs_nonneg w
  have k1 : (∑ c ∈ s, |a c / d|) * |w| ≤ A := by nlinarith
  have k2 : (s.card : ℚ) * (η * |w|) ≤ N * (η * A) := mul_le_mul hN (mul_le_mul_of_nonneg_left hw hη) (by positivity) hN0
  have k3 : (∑ c ∈ s, |l c|) * |w| ≤ (1 + u + N * η) * A := mul_le_mul hL hw w0 (by positivity)
  have k4 : (s.card : ℚ) * η ≤ N * η := mul_le_mul_of_nonneg_right hN hη
  have m1 := mul_le_mul_of_nonneg_left k1 hu
  have m3 := mul_le_mul_of_nonneg_left k3 hu
  have m4 := mul_le_mul_of_nonneg_left hm hu
  have m5 := mul_le_mul_of_nonneg_left m3 hu
  have m6 := mul_le_mul_of_nonneg_left k4 hu
  have uA : 0 ≤ u * A := by positivity
  have g1 : u * (u * A) ≤ 1 / 8 * (u * A) := mul_le_mul_of_nonneg_right hu' uA
  have nηA : 0 ≤ N * η * A := by positivity
  have g2 : u * (N * η * A) ≤ 1 / 8 * (N * η * A) := mul_le_mul_of_nonneg_right hu' nηA
  have nη : 0 ≤ N * η := by positivity
  have g3 : u * (N * η) ≤ 1 / 8 * (N * η) := mul_le_mul_of_nonneg_right hu' nη
  have g4 : u * (u * (u * A)) ≤ 1 / 8 * (1 / 8 * (u * A)) := by
    calc u * (u * (u * A)) ≤ u * (1 / 8 * (u * A)) := mul_le_mul_of_nonneg_left g1 hu
      _ ≤ 1 / 8 * (1 / 8 * (u * A)) := mul_le_mul_of_nonneg_right hu' (by positivity)
  have g5 : u * (u * (N * η * A)) ≤ 1 / 8 * (1 / 8 * (N * η * A)) := by
    calc u * (u * (N * η * A)) ≤ u * (1 / 8 * (N * η * A)) := mul_le_mul_of_nonneg_left g2 hu
      _ ≤ 1 / 8 * (1 / 8 * (N * η * A)) := mul_le_mul_of_nonneg_right hu' (by positivity)
  nlinarith

/-- The part of the matrix that is left before step `i` of the elimination has dominant columns. -/
structure HeavyColumns {n : Nat} (S W : ℚ) (Q : Fin n → Fin n → ℚ) (i : Nat) : Prop where
  rest : ∀ c : Fin n, i ≤ c.1 → S + ∑ r ∈ (columns n i).erase c, |Q r c| ≤ |Q c c|
  top : ∀ c : Fin n, i ≤ c.1 → ∑ r ∈ columns n i, |Q r c| ≤ W

theorem HeavyColumns.pivot {n : Nat} {S W : ℚ} {Q : Fin n → Fin n → ℚ} {i : Fin n} (h : HeavyColumns S W Q i.1) : S ≤ |Q i i| := by
  have h1 := h.rest i le_rfl
  have h2 : 0 ≤ ∑ r ∈ (columns n i.1).erase i, |Q r i| := Finset.sum_nonneg fun _ _ => abs_nonneg _
  linarith

theorem HeavyColumns.below {n : Nat} {S W : ℚ} (hS : 0 < S) {Q : Fin n → Fin n → ℚ} {i : Fin n} (h : HeavyColumns S W Q i.1)
    {r : Fin n} (hr : i < r) : |Q r i| < |Q i i| := by
  have h1 := h.rest i le_rfl
  have h2 := Finset.single_le_sum (f := fun r => |Q r i|) (fun _ _ => abs_nonneg _)
    (show r ∈ (columns n i.1).erase i from Finset.mem_erase.mpr ⟨ne_of_gt hr, mem_columns.mpr (le_of_lt hr)⟩)
  linarith

theorem heavy_column_step {n : Nat} {u η R : ℚ} (hf : Fine binary64 u η R) {t A S W : ℚ} (ht : 0 < t) (hS : t ≤ S) (hA : A ≤ t * R)
    (hR : 8 * A + 2 ≤ R) (hW : W ≤ A) {Q : Fin n → Fin n → ℚ} {i : Fin n} (h : HeavyColumns S W Q i.1) :
    ∃ Q' : Fin n → Fin n → ℚ, elim (fun r c => (fin (Q r c) : Num binary64)) i = (fun r c => fin (Q' r c)) ∧
      HeavyColumns (S - (6 * u * A + 3 * η * (n * (A + 1)))) (W + (6 * u * A + 3 * η * (n * (A + 1)))) Q' (i.1 + 1) := by
  have hu := hf.rounds.u_nonneg
  have hη := hf.rounds.η_nonneg
  have hus : u ≤ 1 / 8 := hf.u_small.trans (by norm_num)
  have hηs : η ≤ 1 / 8 := hf.η_small.trans (by norm_num)
  set T := columns n (i.1 + 1) with hT
  have hT' : ∀ c, c ∈ T → i < c := fun c hc => mem_columns.mp hc
  have hd : t ≤ |Q i i| := hS.trans h.pivot
  have hd0 : 0 < |Q i i| := ht.trans_le hd
  have hdne : Q i i ≠ 0 := abs_pos.mp hd0
  have hentry : ∀ r c : Fin n, i ≤ r → i ≤ c → |Q r c| ≤ A := fun r c hr hc => by
    have h1 := h.top c hc
    have h2 := Finset.single_le_sum (f := fun r => |Q r c|) (fun _ _ => abs_nonneg _) (show r ∈ columns n i.1 from mem_columns.mpr hr)
    linarith
  have hA0 : 0 < A := hd0.trans_le (hentry i i le_rfl le_rfl)
  -- the multipliers
  have hl : ∀ r, ∃ l, i < r → binary64 (Q r i / Q i i) = .fin l := by
    intro r
    by_cases hr : i < r
    · obtain ⟨l, hl⟩ := hf.range (Q r i / Q i i) (by
        rw [abs_div, div_le_iff₀ hd0]
        have h1 := hentry r i hr.le le_rfl
        have hR0 : 0 ≤ R := by linarith
        have := mul_le_mul_of_nonneg_right hd hR0
        linarith)
      exact ⟨l, fun _ => hl⟩
    · exact ⟨0, fun h => absurd h hr⟩
  choose l hl using hl
  have hle : ∀ r, i < r → |l r - Q r i / Q i i| ≤ u * |Q r i / Q i i| + η := fun r hr => hf.rounds.error _ _ (hl r hr)
  have hl2 : ∀ r, i < r → |l r| ≤ 5 / 4 := fun r hr => by
    have h1 : |Q r i / Q i i| ≤ 1 := by
      rw [abs_div, div_le_one hd0]
      exact (h.below (ht.trans_le hS) hr).le
    have h2 := abs_add_le (l r - Q r i / Q i i) (Q r i / Q i i)
    rw [sub_add_cancel] at h2
    have h3 := hle r hr
    have h4 : u * |Q r i / Q i i| ≤ 1 / 8 * 1 := mul_le_mul hus h1 (abs_nonneg _) (by norm_num)
    linarith
  have hw : ∀ r c, i < r → i < c → |l r * Q i c| ≤ 2 * A := fun r c hr hc => by
    rw [abs_mul]
    have := mul_le_mul (hl2 r hr) (hentry i c le_rfl hc.le) (abs_nonneg _) (by norm_num)
    linarith
  have hp : ∀ r c, ∃ p, i < r → i < c → binary64 (l r * Q i c) = .fin p := by
    intro r c
    by_cases hrc : i < r ∧ i < c
    · obtain ⟨p, hp⟩ := hf.range _ ((hw r c hrc.1 hrc.2).trans (by linarith))
      exact ⟨p, fun _ _ => hp⟩
    · exact ⟨0, fun h1 h2 => absurd ⟨h1, h2⟩ hrc⟩
  choose p hp using hp
  have hpA : ∀ r c, i < r → i < c → |p r c| ≤ 5 * A + 1 := by
    intro r c hr hc
    have h1 := hf.rounds.error _ _ (hp r c hr hc)
    have h2 := abs_add_le (p r c - l r * Q i c) (l r * Q i c)
    rw [sub_add_cancel] at h2
    have h3 := hw r c hr hc
    have h4 : u * |l r * Q i c| ≤ 1 / 8 * (2 * A) := mul_le_mul hus h3 (abs_nonneg _) (by norm_num)
    linarith
  have hq : ∀ r c, ∃ q, i < r → i < c → binary64 (Q r c - p r c) = .fin q := by
    intro r c
    by_cases hrc : i < r ∧ i < c
    · obtain ⟨q, hq⟩ := hf.range (Q r c - p r c) (by
        have h1 := abs_sub (Q r c) (p r c)
        have h2 := hentry r c hrc.1.le hrc.2.le
        have h3 := hpA r c hrc.1 hrc.2
        linarith)
      exact ⟨q, fun _ _ => hq⟩
    · exact ⟨0, fun h1 h2 => absurd ⟨h1, h2⟩ hrc⟩
  choose q hq using hq
  have hcard : (T.card : ℚ) ≤ n := by
    have := Finset.card_le_univ T
    rw [Fintype.card_fin] at this
    exact_mod_cast this
  have hcol : ∑ r ∈ T, |Q r i| ≤ |Q i i| := by
    have h1 := h.rest i le_rfl
    rw [columns_erase] at h1
    linarith [ht.trans_le hS]
  have hdiv : ∑ r ∈ T, |Q r i / Q i i| ≤ 1 := by
    calc ∑ r ∈ T, |Q r i / Q i i| = (∑ r ∈ T, |Q r i|) / |Q i i| := by
          rw [Finset.sum_div]
          exact Finset.sum_congr rfl fun r _ => abs_div _ _
      _ ≤ 1 := by rw [div_le_one hd0]; exact hcol
  -- a column
  have hcolumn : ∀ c, i < c → (S - (6 * u * A + 3 * η * (n * (A + 1))) + ∑ r ∈ T.erase c, |q r c| ≤ |q c c|) ∧
      ∑ r ∈ T, |q r c| ≤ W + (6 * u * A + 3 * η * (n * (A + 1))) := by
    intro c hc
    have hcT : c ∈ T := mem_columns.mpr hc
    have hsc := h.rest c hc.le
    have htc := h.top c hc.le
    rw [columns_split, ← hT] at htc
    have hner : i ∈ (columns n i.1).erase c := Finset.mem_erase.mpr ⟨ne_of_lt hc, mem_columns.mpr le_rfl⟩
    have hsc2 := Finset.add_sum_erase _ (fun r => |Q r c|) hner
    rw [Finset.erase_right_comm, columns_erase, ← hT] at hsc2
    have key := column_change T (m := fun r => Q r c) (q := fun r => q r c) (a := fun r => Q r i) (l := l) (p := fun r => p r c)
      (d := Q i i) (w := Q i c) hu hus hη hdne (fun r hr => hle r (hT' r hr))
      (fun r hr => hf.rounds.error _ _ (hp r c (hT' r hr) hc)) (fun r hr => hf.rounds.error _ _ (hq r c (hT' r hr) hc)) hcol
      (hentry i c le_rfl hc.le) (by
        have := abs_nonneg (Q i c)
        linarith) hcard
    set E := 6 * u * A + 3 * η * (n * (A + 1)) with hE
    set ε : Fin n → ℚ := fun r => |q r c - (Q r c - Q r i / Q i i * Q i c)| with hε
    change ∑ r ∈ T, ε r ≤ E at key
    have keyc := Finset.add_sum_erase T ε hcT
    have hup : ∀ r, |q r c| ≤ ε r + |Q r c| + |Q r i / Q i i| * |Q i c| := fun r => by
      have h1 := abs_add_le (q r c - (Q r c - Q r i / Q i i * Q i c)) (Q r c - Q r i / Q i i * Q i c)
      have h2 := abs_sub (Q r c) (Q r i / Q i i * Q i c)
      rw [sub_add_cancel] at h1
      rw [abs_mul] at h2
      linarith
    have hlow : |Q c c| - |Q c i / Q i i| * |Q i c| - ε c ≤ |q c c| := by
      have h1 := abs_sub_abs_le_abs_sub (Q c c) (Q c i / Q i i * Q i c)
      have h2 := abs_sub_abs_le_abs_sub (Q c c - Q c i / Q i i * Q i c) (q c c)
      rw [abs_sub_comm (Q c c - Q c i / Q i i * Q i c) (q c c)] at h2
      rw [abs_mul] at h1
      show _ - |q c c - (Q c c - Q c i / Q i i * Q i c)| ≤ _
      linarith
    have hsumT : (∑ r ∈ T, |Q r i / Q i i|) * |Q i c| ≤ |Q i c| := mul_le_of_le_one_left (abs_nonneg _) hdiv
    constructor
    · have h1 := Finset.sum_le_sum fun r (_ : r ∈ T.erase c) => hup r
      rw [Finset.sum_add_distrib, Finset.sum_add_distrib, ← Finset.sum_mul] at h1
      rw [← Finset.add_sum_erase T (fun r => |Q r i / Q i i|) hcT, add_mul] at hsumT
      linarith
    · have h1 := Finset.sum_le_sum fun r (_ : r ∈ T) => hup r
      rw [Finset.sum_add_distrib, Finset.sum_add_distrib, ← Finset.sum_mul] at h1
      linarith
  set Q' : Fin n → Fin n → ℚ := fun r c => if i < r then (if c = i then l r else if i < c then q r c else Q r c) else Q r c with hQ'
  have qOld : ∀ r c, ¬ i < r → Q' r c = Q r c := fun r c hr => by simp only [hQ', hr, if_false]
  have qLeft : ∀ r c, c < i → Q' r c = Q r c := fun r c hc => by
    simp only [hQ', ne_of_lt hc, lt_asymm hc, if_false]
    split <;> rfl
  have qNew : ∀ r c, i < r → i < c → Q' r c = q r c := fun r c hr hc => by
    simp only [hQ', hr, hc, ne_of_gt hc, if_true, if_false]
  have qMult : ∀ r, i < r → Q' r i = l r := fun r hr => by simp only [hQ', hr, if_true]
  refine ⟨Q', ?_, fun c hc => ?_, fun c hc => ?_⟩
  · funext r c
    unfold elim
    by_cases hr : i < r
    · have h1 : (fin (Q r i) : Num binary64) / fin (Q i i) = fin (l r) := div64 hdne (hl r hr)
      simp only [hr, if_true]
      by_cases hc : c = i
      · subst hc
        rw [if_pos rfl, qMult r hr]
        exact h1
      · rw [if_neg hc]
        by_cases hc' : i < c
        · rw [if_pos hc', h1, qNew r c hr hc', mul64 (hp r c hr hc'), sub64 (hq r c hr hc')]
        · rw [if_neg hc', qLeft r c (lt_of_le_of_ne (not_lt.mp hc') hc)]
    · simp only [hr, if_false]
      rw [qOld r c hr]
  · have hic : i < c := hc
    rw [qNew c c hic hic]
    refine le_trans (le_of_eq ?_) (hcolumn c hic).1
    congr 1
    refine Finset.sum_congr rfl fun r hr => ?_
    rw [qNew r c (hT' r (Finset.mem_of_mem_erase hr)) hic]
  · have hic : i < c := hc
    refine le_trans (le_of_eq ?_) (hcolumn c hic).2
    refine Finset.sum_congr rfl fun r hr => ?_
    rw [qNew r c (hT' r hr) hic]

/-! ### The search for the pivot -/

/-- The pivot step keeps a pivot that is larger than everything below it. -/
theorem pivotStep_keeps {n : Nat} {u η R : ℚ} (hf : Fine binary64 u η R) {Q : Fin n → Fin n → ℚ} {i : Fin n} {A : ℚ}
    (hbig : 1 / 2 ^ 45 ≤ |Q i i|) (hA : |Q i i| ≤ A) (hR : 8 * A + 2 ≤ R) (hlt : ∀ r, i < r → |Q r i| < |Q i i|) (st : List Nat) :
    pivotStep (Num.arith binary64) i.1 (mat (fun r c => (fin (Q r c) : Num binary64)), st) =
      .ok (mat (fun r c => (fin (Q r c) : Num binary64)), st) := by
  obtain ⟨⟨mx, m⟩, h1, h2⟩ := loop_inv (n := n - i.1) (body := searchBody (Num.arith binary64) (mat fun r c => (fin (Q r c) : Num binary64)) i.1)
    (s := ((0 : Num binary64), i.1))
    (fun k t => t.2 = i.1 ∧ (k = 0 → t.1 = fin 0) ∧ (0 < k → t.1 = fin |Q i i|)) ⟨rfl, fun _ => rfl, fun h => absurd h (lt_irrefl _)⟩ (by
      rintro k ⟨mx, m⟩ hk ⟨h2, h3, h4⟩
      have hr : i.1 + k < n := by omega
      simp only at h2 h3 h4
      obtain ⟨g, hg⟩ := nearlyGreater_num (rnd := binary64) (fin |Q ⟨i.1 + k, hr⟩ i|) mx
      refine ⟨_, by simp only [searchBody, rd2_mat _ hr i.2, Out.ok_bind]; rw [show (Num.arith binary64).abs (fin (Q ⟨i.1 + k, hr⟩ ⟨i.1, i.2⟩)) = fin |Q ⟨i.1 + k, hr⟩ i| from rfl, hg]; rfl, ?_⟩
      rcases Nat.eq_zero_or_pos k with rfl | hk0
      · rw [h3 rfl] at hg
        have e : (⟨i.1 + 0, hr⟩ : Fin n) = i := Fin.ext (by simp)
        cases g with
        | true =>
          refine ⟨by simp, fun h => absurd h (by omega), fun _ => ?_⟩
          simp only [if_true]
          rw [e]
        | false =>
          have h5 := near_num hf (abs_nonneg _) le_rfl (by rw [e]; linarith) hg
          rw [e] at h5
          norm_num at h5 hbig
          linarith
      · rw [h4 hk0] at hg
        have h5 := hlt ⟨i.1 + k, hr⟩ (show i.1 < i.1 + k by omega)
        have h6 : (Num.arith binary64).nearlyGreater (fin |Q ⟨i.1 + k, hr⟩ i| : Num binary64) (fin |Q i i|)
            (Num.arith binary64).rel (Num.arith binary64).tol = .ok false := by
          unfold Arith.nearlyGreater Arith.nearlyLessEqual
          rw [show (Num.arith binary64).lt (fin |Q ⟨i.1 + k, hr⟩ i| : Num binary64) (fin |Q i i|) = true from by
            show Fl.lt (.fin _) (.fin _) = true
            simpa [Fl.lt] using h5]
          rfl
        obtain rfl : g = false := by
          rw [hg] at h6
          exact Out.ok.inj h6
        exact ⟨h2, fun h => absurd h (by omega), fun _ => h4 hk0⟩)
  unfold pivotStep
  simp only
  rw [sizeColumn_mat (by have := i.2; omega), h1, Out.ok_bind]
  simp only
  obtain rfl : m = i.1 := h2.1
  rw [if_neg (by simp)]
  rfl

/-! ### The factorisation -/

/-- With and without pivoting the elimination makes the same factors. -/
theorem factorise_heavy_columns {n : Nat} {u η R : ℚ} (hf : Fine binary64 u η R) {t τ A S W : ℚ} (ht : t ≤ τ) (hτ : 1 / 2 ^ 45 ≤ τ)
    (hS : τ + n * (6 * u * A + 3 * η * (n * (A + 1))) ≤ S) (hA : A ≤ τ * R) (hA0 : 0 ≤ A) (hR : 8 * A + 2 ≤ R)
    (hW : W + n * (6 * u * A + 3 * η * (n * (A + 1))) ≤ A) {B : Fin n → Fin n → ℚ} (h : HeavyColumns S W B 0) :
    ∃ M : Fin n → Fin n → ℚ, ∀ (pivot : Bool) (st : List Nat),
      loop n (factoriseBody (Num.arith binary64) pivot (fin t)) (mat (fun r c => (fin (B r c) : Num binary64)), st, true) =
        .ok (mat (fun r c => (fin (M r c) : Num binary64)), st, true) := by
  set E := 6 * u * A + 3 * η * (n * (A + 1)) with hE
  have hu := hf.rounds.u_nonneg
  have hη := hf.rounds.η_nonneg
  have hE0 : 0 ≤ E := by positivity
  have hτ0 : 0 < τ := lt_of_lt_of_le (by positivity) hτ
  have key : ∀ k, k ≤ n → ∃ M : Fin n → Fin n → ℚ, HeavyColumns (S - k * E) (W + k * E) M k ∧ ∀ (pivot : Bool) (st : List Nat),
      loop k (factoriseBody (Num.arith binary64) pivot (fin t)) (mat (fun r c => (fin (B r c) : Num binary64)), st, true) =
        .ok (mat (fun r c => (fin (M r c) : Num binary64)), st, true) := by
    intro k
    induction k with
    | zero => exact fun _ => ⟨B, by simpa using h, fun _ _ => rfl⟩
    | succ i ih =>
      intro hi
      obtain ⟨M, h3, h2⟩ := ih (by omega)
      have hin : (i : ℚ) * E ≤ n * E := mul_le_mul_of_nonneg_right (by exact_mod_cast (by omega : i ≤ n)) hE0
      have hSi : τ ≤ S - i * E := by linarith
      have hWi : W + i * E ≤ A := by linarith
      obtain ⟨M', e1, h4⟩ := heavy_column_step hf (i := ⟨i, hi⟩) hτ0 hSi hA hR hWi h3
      have e : S - ((i + 1 : ℕ) : ℚ) * E = S - i * E - E := by push_cast; ring
      have e' : W + ((i + 1 : ℕ) : ℚ) * E = W + i * E + E := by push_cast; ring
      refine ⟨M', by rw [e, e']; exact h4, fun pivot st => ?_⟩
      have hd : τ ≤ |M ⟨i, hi⟩ ⟨i, hi⟩| := hSi.trans (HeavyColumns.pivot (i := ⟨i, hi⟩) h3)
      have hdA : |M ⟨i, hi⟩ ⟨i, hi⟩| ≤ A := by
        have h5 := h3.top ⟨i, hi⟩ le_rfl
        have h6 := Finset.single_le_sum (f := fun r => |M r ⟨i, hi⟩|) (fun _ _ => abs_nonneg _)
          (show (⟨i, hi⟩ : Fin n) ∈ columns n i from mem_columns.mpr le_rfl)
        linarith
      have hlt : (Num.arith binary64).lt ((Num.arith binary64).abs (fin (M ⟨i, hi⟩ ⟨i, hi⟩) : Num binary64)) (fin t) = false := by
        show decide (|M ⟨i, hi⟩ ⟨i, hi⟩| < t) = false
        simpa using ht.trans hd
      have hp : (if pivot then pivotStep (Num.arith binary64) i (mat (fun r c => (fin (M r c) : Num binary64)), st)
          else pure (mat (fun r c => (fin (M r c) : Num binary64)), st)) = .ok (mat (fun r c => (fin (M r c) : Num binary64)), st) := by
        cases pivot
        · rfl
        · exact pivotStep_keeps hf (i := ⟨i, hi⟩) (hτ.trans hd) hdA hR
            (fun r hr => HeavyColumns.below (i := ⟨i, hi⟩) (hτ0.trans_le hSi) h3 hr) st
      simp only [loop, h2, Out.ok_bind]
      unfold factoriseBody
      simp only [if_true]
      rw [hp]
      simp only [Out.pure_eq, Out.ok_bind, rd2_mat _ hi hi, hlt, mat_length, Bool.false_eq_true, if_false]
      have := eliminate_ok (fun r c => (fin (M r c) : Num binary64)) ⟨i, hi⟩
      simp only at this
      rw [this, e1]
      rfl
  obtain ⟨M, -, h2⟩ := key n le_rfl
  exact ⟨M, h2⟩

/-- The room that the errors need. -/
theorem column_room {n : Nat} (hn0 : 0 < n) {τ A S : ℚ} (hτ : 1 / 2 ^ 45 ≤ τ) (hA : A ≤ 2 ^ 900) {B : Fin n → Fin n → ℚ}
    (hcol : ∀ c, ∑ r, |B r c| ≤ A) (hdom : ∀ c, S + ∑ r ∈ Finset.univ.erase c, |B r c| ≤ |B c c|) (hS : τ + n * A / 2 ^ 49 ≤ S) :
    τ + n * (6 * (1 / 2 ^ 53) * (2 * A) + 3 * (1 / 2 ^ 1075) * (n * (2 * A + 1))) ≤ S ∧ 2 * A ≤ τ * 2 ^ 1023 ∧ 0 ≤ 2 * A ∧
      8 * (2 * A) + 2 ≤ 2 ^ 1023 ∧ A + n * (6 * (1 / 2 ^ 53) * (2 * A) + 3 * (1 / 2 ^ 1075) * (n * (2 * A + 1))) ≤ 2 * A ∧
      HeavyColumns S A B 0 := by
  have hτ0 : 0 < τ := lt_of_lt_of_le (by positivity) hτ
  obtain ⟨hτS, hSA, hn⟩ := heavy_size hn0 (B := fun r c => B c r) hτ0 hcol hdom hS
  have hτA : 1 / 2 ^ 45 ≤ A := hτ.trans (hτS.trans hSA)
  have hA0 : 0 ≤ A := hτ0.le.trans (hτS.trans hSA)
  have hE : 6 * (1 / 2 ^ 53) * (2 * A) + 3 * (1 / 2 ^ 1075) * (n * (2 * A + 1)) ≤ A / 2 ^ 49 := by
    have h3 : (1 : ℚ) ≤ 2 ^ 45 * A := by
      have := mul_le_mul_of_nonneg_left hτA (show (0 : ℚ) ≤ 2 ^ 45 by positivity)
      rwa [mul_one_div_cancel (by positivity)] at this
    have h4 : (n : ℚ) * (2 * A + 1) ≤ 2 ^ 49 * (2 ^ 46 * A) := by
      refine mul_le_mul hn ?_ (by positivity) (by positivity)
      norm_num at h3 ⊢
      linarith
    have h5 : 3 * (1 / 2 ^ 1075) * (n * (2 * A + 1)) ≤ 3 * (1 / 2 ^ 1075) * (2 ^ 49 * (2 ^ 46 * A)) :=
      mul_le_mul_of_nonneg_left h4 (by positivity)
    have h7 : (1 / 2 ^ 1075 : ℚ) ≤ 1 / 2 ^ 160 :=
      one_div_le_one_div_of_le (by positivity) (pow_le_pow_right₀ (by norm_num) (by norm_num))
    have h8 : 3 * (1 / 2 ^ 1075) * (2 ^ 49 * (2 ^ 46 * A)) ≤ 3 * (1 / 2 ^ 160) * (2 ^ 49 * (2 ^ 46 * A)) := by gcongr
    generalize (1 / 2 ^ 1075 : ℚ) = e at *
    have h9 : A / 2 ^ 49 = 16 * (1 / 2 ^ 53) * A := by ring
    have h10 : 3 * (1 / 2 ^ 160) * (2 ^ 49 * (2 ^ 46 * A)) ≤ 4 * (1 / 2 ^ 53) * A := by
      rw [show 3 * (1 / 2 ^ 160) * (2 ^ 49 * (2 ^ 46 * A)) = 3 * (1 / 2 ^ 160) * (2 ^ 49 * 2 ^ 46) * A by ring]
      exact mul_le_mul_of_nonneg_right (by norm_num) hA0
    linarith
  have hnE := mul_le_mul_of_nonneg_left hE (show (0 : ℚ) ≤ n by positivity)
  rw [← mul_div_assoc] at hnE
  have r1 : 2 * A ≤ τ * 2 ^ 1023 := by
    calc 2 * A ≤ 2 * 2 ^ 900 := by gcongr
      _ = 2 ^ 901 := by rw [pow_succ 2 900]; ring
      _ ≤ 1 / 2 ^ 45 * 2 ^ 1023 := by
        rw [show (1023 : ℕ) = 45 + 978 from rfl, pow_add, ← mul_assoc, one_div_mul_cancel (by positivity), one_mul]
        exact pow_le_pow_right₀ (by norm_num) (by norm_num)
      _ ≤ τ * 2 ^ 1023 := mul_le_mul_of_nonneg_right hτ (by positivity)
  have r2 : 8 * (2 * A) + 2 ≤ 2 ^ 1023 := by
    have h1 : (8 : ℚ) * (2 * 2 ^ 900) + 2 ≤ 2 ^ 905 := by
      rw [show (905 : ℕ) = 900 + 5 from rfl, pow_add]
      have : (1 : ℚ) ≤ 2 ^ 900 := one_le_pow₀ (by norm_num)
      generalize (2 : ℚ) ^ 900 = p at *
      norm_num
      linarith
    have h2 : (2 : ℚ) ^ 905 ≤ 2 ^ 1023 := pow_le_pow_right₀ (by norm_num) (by norm_num)
    generalize (2 : ℚ) ^ 905 = p at *
    generalize (2 : ℚ) ^ 1023 = p' at *
    generalize (2 : ℚ) ^ 900 = p'' at *
    linarith
  have e0 : columns n 0 = Finset.univ := by simp [columns]
  exact ⟨by linarith, r1, by linarith, r2, by linarith, fun c _ => by rw [e0]; exact hdom c, fun c _ => by rw [e0]; exact hcol c⟩

/-- The forward sweep reads the right hand side in the same order. -/
theorem solve_range {K : Type} [Zero K] [Sub K] [Mul K] [Div K] {n : Nat} (s1 s2 : Lu K) (hlu : s1.lu = s2.lu) (hf : s1.factorised = s2.factorised) (hn : s1.lu.length = n)
    (hp : s1.piv = List.range n) (x0 : List K) (b : Option (List K)) :
    Lu.solve true s1 x0 b = Lu.solve false s2 x0 b := by
  have h1 : ∀ x, loop n (forwardBody true s1 b) x = loop n (forwardBody false s2 b) x := fun x =>
    loop_congr_inv (fun _ _ => True) trivial (fun i x hi _ => by
      unfold forwardBody
      have : rd s1.piv i = .ok i := by
        rw [hp, rd_ok (by simpa using hi)]
        simp
      simp only [if_true, Bool.false_eq_true, if_false, this, Out.ok_bind, Out.pure_eq, hlu]) fun _ _ _ _ _ _ => trivial
  unfold Lu.solve
  rw [← hlu, ← hf, hn]
  simp only [h1]
  unfold backwardBody
  rw [hlu]

/-- C208: for a matrix of doubles whose columns are dominated by the diagonal, pivoting interchanges no equations: both direct
solvers accept it, keep the same factors, and give the same results for all right hand sides, initial vectors and in place. -/
theorem c208_same {n : Nat} {t τ A S : ℚ} (ht : t ≤ τ) (hτ : 1 / 2 ^ 45 ≤ τ) (hA : A ≤ 2 ^ 900) (B : Fin n → Fin n → ℚ)
    (hcol : ∀ c, ∑ r, |B r c| ≤ A) (hdom : ∀ c, S + ∑ r ∈ Finset.univ.erase c, |B r c| ≤ |B c c|) (hS : τ + n * A / 2 ^ 49 ≤ S)
    (s1 s2 : Lu (Num binary64)) (h1 : s1.tol = fin t) (h2 : s2.tol = fin t) :
    ∃ s1' s2', factorise (Num.arith binary64) true s1 (mat fun r c => (fin (B r c) : Num binary64)) = .ok (s1', true) ∧
      factorise (Num.arith binary64) false s2 (mat fun r c => (fin (B r c) : Num binary64)) = .ok (s2', true) ∧
      s1'.piv = List.range n ∧ s1'.lu = s2'.lu ∧ ∀ x0 b, Lu.solve true s1' x0 b = Lu.solve false s2' x0 b := by
  have hτ0 : 0 < τ := lt_of_lt_of_le (by positivity) hτ
  have main : ∃ M : Fin n → Fin n → ℚ, ∀ (pivot : Bool) (st : List Nat),
      loop n (factoriseBody (Num.arith binary64) pivot (fin t)) (mat (fun r c => (fin (B r c) : Num binary64)), st, true) =
        .ok (mat (fun r c => (fin (M r c) : Num binary64)), st, true) := by
    rcases Nat.eq_zero_or_pos n with rfl | hn0
    · exact ⟨B, fun _ _ => rfl⟩
    obtain ⟨h1, h2, h3, h4, h5, h6⟩ := column_room hn0 hτ hA hcol hdom hS
    exact factorise_heavy_columns fine_binary64 (t := t) (τ := τ) (A := 2 * A) (S := S) (W := A) (B := B) ht hτ h1 h2 h3 h4 h5 h6
  obtain ⟨M, hM⟩ := main
  have e1 : factorise (Num.arith binary64) true s1 (mat fun r c => (fin (B r c) : Num binary64)) =
      .ok ({ s1 with factorised := true, lu := mat (fun r c => (fin (M r c) : Num binary64)), piv := List.range n }, true) := by
    unfold factorise
    rw [mat_length, h1]
    simp only [if_true]
    rw [sizeColumn_mat id, hM true]
    rfl
  have e2 : factorise (Num.arith binary64) false s2 (mat fun r c => (fin (B r c) : Num binary64)) =
      .ok ({ s2 with factorised := true, lu := mat (fun r c => (fin (M r c) : Num binary64)) }, true) := by
    unfold factorise
    rw [mat_length, h2]
    simp only [Bool.false_eq_true, if_false]
    rw [hM false]
    rfl
  exact ⟨_, _, e1, e2, rfl, rfl, fun x0 b => solve_range _ _ rfl rfl (mat_length _) rfl x0 b⟩

/-- C208: if the rows are dominated as well, the pivoting solver has finite solutions close to the exact ones. -/
theorem c208_solved {n β : Nat} (hb : β < 2 ^ 52) {t A S : ℚ} (ht : 1 / 2 ^ 100 ≤ t) (hA : A ≤ 2 ^ 400) (B : Fin n → Fin n → ℚ)
    (hB : ∀ r c, binary64 (B r c) = .fin (B r c)) (hβ : Band β B) (hrow : ∀ r, ∑ c, |B r c| ≤ A)
    (hdom : ∀ r, S + ∑ c ∈ Finset.univ.erase r, |B r c| ≤ |B r r|) (hcol : ∀ c, ∑ r, |B r c| ≤ A)
    (hdomc : ∀ c, S + ∑ r ∈ Finset.univ.erase c, |B r c| ≤ |B c c|) (hS : max t (1 / 2 ^ 45) + n * A / 2 ^ 47 ≤ S)
    (s : Lu (Num binary64)) (hs : s.tol = fin t) :
    ∃ s', factorise (Num.arith binary64) true s (mat fun r c => (fin (B r c) : Num binary64)) = .ok (s', true) ∧
    ∀ (d : Fin n → ℚ) (D : ℚ) (x0 : List (Num binary64)), (∀ r, binary64 (d r) = .fin (d r)) → (∀ r, |d r| ≤ D) → D ≤ 2 ^ 400 →
      ∃ x : Fin n → ℚ, Lu.solve true s' x0 (some (vec fun r => (fin (d r) : Num binary64))) =
        .ok (vec (fun r => (fin (x r) : Num binary64)), true, 1) ∧
      (∀ r, |x r| ≤ 8 * (D + A / 2 ^ 900) / S) ∧
      ∀ y, Solves B y d → ∀ r, |x r - y r| ≤ ((β + 1 : Nat) : ℚ) ^ 2 * (A / S) * (D / S / 2 ^ 44 + 1 / 2 ^ 440) := by
  have hS9 : max t (1 / 2 ^ 45) + n * A / 2 ^ 49 ≤ S := by
    rcases Nat.eq_zero_or_pos n with rfl | hn0
    · simpa using hS
    · have h1 : 0 ≤ ∑ c, |B ⟨0, hn0⟩ c| := Finset.sum_nonneg fun _ _ => abs_nonneg _
      have h2 : 0 ≤ n * A := mul_nonneg (by positivity) (h1.trans (hrow _))
      have h3 : n * A / 2 ^ 49 ≤ n * A / 2 ^ 47 := div_le_div_of_nonneg_left h2 (by positivity) (by norm_num)
      linarith
  obtain ⟨s1, s2, h1, h2, -, -, h3⟩ := c208_same (le_max_left t (1 / 2 ^ 45)) (le_max_right _ _)
    (hA.trans (pow_le_pow_right₀ (by norm_num) (by norm_num))) B hcol hdomc hS9 s s hs hs
  obtain ⟨s3, k1, k2⟩ := c207_solved hb ht hA B hB hβ hrow hdom (by linarith [le_max_left t (1 / 2 ^ 45)]) s hs
  obtain rfl := (Prod.mk.inj (Out.ok.inj (h2.symm.trans k1))).1
  exact ⟨s1, h1, fun d D x0 hd hD hD' => by rw [h3]; exact k2 d D x0 hd hD hD'⟩

/-- A matrix that has dominant rows and columns and is not symmetric. -/
example : (∀ c, ∑ r, |mixedSigns r c| ≤ 7) ∧ (∀ c, 1 + ∑ r ∈ Finset.univ.erase c, |mixedSigns r c| ≤ |mixedSigns c c|) ∧
    (max (64 * (1 / 2 ^ 52)) (1 / 2 ^ 45) : ℚ) + (3 : Nat) * 7 / 2 ^ 47 ≤ 1 := by
  refine ⟨by decide +kernel, by decide +kernel, by norm_num⟩

/-- A matrix with dominant columns whose rows are not dominated. -/
def tallColumns (r c : Fin 2) : ℚ := ([[3, -8], [1, 9]].getD r.1 []).getD c.1 0

example : (∀ c, ∑ r, |tallColumns r c| ≤ 17) ∧ (∀ c, 1 + ∑ r ∈ Finset.univ.erase c, |tallColumns r c| ≤ |tallColumns c c|) ∧
    (1 / 2 ^ 45 : ℚ) + (2 : Nat) * 17 / 2 ^ 49 ≤ 1 ∧ |tallColumns 0 0| < |tallColumns 0 1| ∧ (64 * (1 / 2 ^ 52) : ℚ) ≤ 1 / 2 ^ 45 := by
  refine ⟨by decide +kernel, by decide +kernel, by norm_num, by decide +kernel, by norm_num⟩

/-- Dominant rows are not enough: pivoting interchanges these equations. -/
example : ∃ s', factorise (Num.arith binary64) true freshDouble [[fin 2, fin 1], [fin 4, fin 8]] = .ok (s', true) ∧
    s'.piv = [1, 0] :=
  ⟨⟨true, freshDouble.tol, [[fin 4, fin 8], [fin (1 / 2), fin (-3)]], [1, 0]⟩, by decide +kernel, rfl⟩

end Disa.Props
