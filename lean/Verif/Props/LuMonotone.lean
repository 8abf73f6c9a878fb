import Verif.Props.LuFloat
import Verif.Props.MonotoneFloat
import Verif.Props.LuPivot

/-!
# Property C198: the direct solver without pivoting and doubles, for dominant matrices with nonpositive coupling
-/

namespace Disa.Props

open Disa Spec Dense Num Lu

/-! ### Sweeps -/

/-- Three finite numbers, the second between the others. -/
def Between (a b c : Num binary64) : Prop :=
  ∃ l q h : ℚ, a = fin l ∧ b = fin q ∧ c = fin h ∧ l ≤ q ∧ q ≤ h

/-- A number is finite. -/
def IsFin (a : Num binary64) : Prop := ∃ q : ℚ, a = fin q

theorem Between.sub {a b c : Num binary64} {m : ℚ} {x y z : Num binary64} (hm : m ≤ 0) (h : Between a b c) (h' : Between x y z)
    (h1 : IsFin (a - fin m * x)) (h2 : IsFin (c - fin m * z)) :
    Between (a - fin m * x) (b - fin m * y) (c - fin m * z) := by
  obtain ⟨l, q, r, rfl, rfl, rfl, k1, k2⟩ := h
  obtain ⟨l', q', r', rfl, rfl, rfl, k3, k4⟩ := h'
  obtain ⟨v, hv⟩ := h1
  obtain ⟨w, hw⟩ := h2
  obtain ⟨l1, p1, e1, e2, e3⟩ := sub_fin hv
  obtain ⟨l2, p2, e4, e5, e6⟩ := sub_fin hw
  rw [fin_inj] at e1 e4
  subst e1 e4
  have e2' : binary64 (m * l') = .fin p1 := e2
  have e5' : binary64 (m * r') = .fin p2 := e5
  have m1 : m * r' ≤ m * q' := mul_le_mul_of_nonpos_left k4 hm
  have m2 : m * q' ≤ m * l' := mul_le_mul_of_nonpos_left k3 hm
  obtain ⟨p, hp⟩ := binary64_squeeze m1 m2 e5' e2'
  have b1 := binary64_fin_mono m1 e5' hp
  have b2 := binary64_fin_mono m2 hp e2'
  have m3 : l - p1 ≤ q - p := by linarith
  have m4 : q - p ≤ r - p2 := by linarith
  obtain ⟨z, hz⟩ := binary64_squeeze m3 m4 e3 e6
  refine ⟨v, z, w, hv, ?_, hw, binary64_fin_mono m3 e3 hz, binary64_fin_mono m4 hz e6⟩
  rw [mul64 hp, sub64 hz]

theorem less_fin {n : Nat} {v : Num binary64} {f : Fin n → Num binary64} {a k : Nat} (h : IsFin (less v f a k)) : IsFin v := by
  induction k with
  | zero => exact h
  | succ k ih =>
    unfold less at h
    split at h
    · obtain ⟨q, hq⟩ := h
      obtain ⟨x, _, e, -⟩ := sub_fin hq
      exact ih ⟨x, e⟩
    · exact ih h

theorem less_between {n : Nat} {v1 v2 v3 : Num binary64} {m : Fin n → ℚ} {y1 y2 y3 : Fin n → Num binary64} {a k : Nat}
    (hv : Between v1 v2 v3)
    (hy : ∀ c : Fin n, a ≤ c.1 → c.1 < a + k → m c ≤ 0 ∧ Between (y1 c) (y2 c) (y3 c))
    (h1 : IsFin (less v1 (fun c => fin (m c) * y1 c) a k)) (h3 : IsFin (less v3 (fun c => fin (m c) * y3 c) a k)) :
    Between (less v1 (fun c => fin (m c) * y1 c) a k) (less v2 (fun c => fin (m c) * y2 c) a k)
      (less v3 (fun c => fin (m c) * y3 c) a k) := by
  induction k with
  | zero => exact hv
  | succ k ih =>
    unfold less at h1 h3 ⊢
    by_cases hk : a + k < n
    · simp only [hk, dif_pos] at h1 h3 ⊢
      have f1 : IsFin (less v1 (fun c => fin (m c) * y1 c) a k) := by
        obtain ⟨q, hq⟩ := h1
        obtain ⟨x, _, e, -⟩ := sub_fin hq
        exact ⟨x, e⟩
      have f3 : IsFin (less v3 (fun c => fin (m c) * y3 c) a k) := by
        obtain ⟨q, hq⟩ := h3
        obtain ⟨x, _, e, -⟩ := sub_fin hq
        exact ⟨x, e⟩
      obtain ⟨g1, g2⟩ := hy ⟨a + k, hk⟩ (by simp) (by simp)
      exact Between.sub g1 (ih (fun c q1 q2 => hy c q1 (by omega)) f1 f3) g2 h1 h3
    · simp only [hk, dif_neg, not_false_iff] at h1 h3 ⊢
      exact ih (fun c q1 q2 => hy c q1 (by omega)) h1 h3

/-- The sweeps with factors whose elements off the diagonal are not positive, and which have a positive diagonal, keep the
order of the right hand sides. -/
theorem sweeps_between {n : Nat} {M : Fin n → Fin n → ℚ} (hd : ∀ r, 0 < M r r) (ho : ∀ r c, r ≠ c → M r c ≤ 0)
    {b1 b2 b3 : Fin n → Num binary64} (hb : ∀ r, Between (b1 r) (b2 r) (b3 r)) {y1 y2 y3 x1 x2 x3 : Fin n → Num binary64}
    (e1 : ∀ r, y1 r = less (b1 r) (fun c => fin (M r c) * y1 c) 0 r.1)
    (e2 : ∀ r, y2 r = less (b2 r) (fun c => fin (M r c) * y2 c) 0 r.1)
    (e3 : ∀ r, y3 r = less (b3 r) (fun c => fin (M r c) * y3 c) 0 r.1)
    (f1 : ∀ r, x1 r = less (y1 r) (fun c => fin (M r c) * x1 c) (r.1 + 1) (n - (r.1 + 1)) / fin (M r r))
    (f2 : ∀ r, x2 r = less (y2 r) (fun c => fin (M r c) * x2 c) (r.1 + 1) (n - (r.1 + 1)) / fin (M r r))
    (f3 : ∀ r, x3 r = less (y3 r) (fun c => fin (M r c) * x3 c) (r.1 + 1) (n - (r.1 + 1)) / fin (M r r))
    (h1 : ∀ r, IsFin (x1 r)) (h3 : ∀ r, IsFin (x3 r)) (r : Fin n) : Between (x1 r) (x2 r) (x3 r) := by
  have g1 : ∀ r, IsFin (less (y1 r) (fun c => fin (M r c) * x1 c) (r.1 + 1) (n - (r.1 + 1))) := by
    intro r
    obtain ⟨q, hq⟩ := h1 r
    rw [f1 r] at hq
    obtain ⟨x, e, -⟩ := div_fin (hd r).ne' hq
    exact ⟨x, e⟩
  have g3 : ∀ r, IsFin (less (y3 r) (fun c => fin (M r c) * x3 c) (r.1 + 1) (n - (r.1 + 1))) := by
    intro r
    obtain ⟨q, hq⟩ := h3 r
    rw [f3 r] at hq
    obtain ⟨x, e, -⟩ := div_fin (hd r).ne' hq
    exact ⟨x, e⟩
  have hy : ∀ k, ∀ r : Fin n, r.1 = k → Between (y1 r) (y2 r) (y3 r) := by
    intro k
    induction k using Nat.strong_induction_on with
    | _ k ih =>
      rintro r rfl
      have s1 := less_fin (g1 r)
      have s3 := less_fin (g3 r)
      rw [e1 r] at s1
      rw [e3 r] at s3
      rw [e1 r, e2 r, e3 r]
      exact less_between (hb r) (fun c _ hc => ⟨ho r c (by rintro rfl; omega), ih c.1 (by omega) c rfl⟩) s1 s3
  have hx : ∀ k, ∀ r : Fin n, n - 1 - r.1 = k → Between (x1 r) (x2 r) (x3 r) := by
    intro k
    induction k using Nat.strong_induction_on with
    | _ k ih =>
      rintro r rfl
      obtain ⟨l, q, u, a1, a2, a3, k1, k2⟩ := less_between (m := fun c => M r c) (hy r.1 r rfl) (fun c hc hc' =>
        ⟨ho r c (by rintro rfl; omega), ih (n - 1 - c.1) (by omega) c rfl⟩) (g1 r) (g3 r)
      obtain ⟨v, hv⟩ := h1 r
      obtain ⟨w, hw⟩ := h3 r
      have v' := hv
      have w' := hw
      rw [f1 r, a1] at v'
      rw [f3 r, a3] at w'
      obtain ⟨_, c1, c2⟩ := div_fin (hd r).ne' v'
      obtain ⟨_, c3, c4⟩ := div_fin (hd r).ne' w'
      rw [fin_inj] at c1 c3
      subst c1 c3
      have m1 : l / M r r ≤ q / M r r := div_le_div_of_nonneg_right k1 (hd r).le
      have m2 : q / M r r ≤ u / M r r := div_le_div_of_nonneg_right k2 (hd r).le
      obtain ⟨z, hz⟩ := binary64_squeeze m1 m2 c2 c4
      refine ⟨v, z, w, hv, ?_, hw, binary64_fin_mono m1 c2 hz, binary64_fin_mono m2 hz c4⟩
      rw [f2 r, a2, div64 (hd r).ne' hz]
  exact hx _ r rfl

/-! ### Factors -/

/-- What a step of the elimination loses of the sum of a row. -/
theorem row_loss {ι : Type} (s : Finset ι) {m q w p : ι → ℚ} {a d l u η A N : ℚ} (hu : 0 ≤ u) (hu' : u ≤ 1 / 8) (hη : 0 ≤ η)
    (hd : 0 < d) (hl : |l - a / d| ≤ u * |a / d| + η) (hp : ∀ c ∈ s, |p c - l * w c| ≤ u * |l * w c| + η)
    (hq : ∀ c ∈ s, |q c - (m c - p c)| ≤ u * |m c - p c| + η) (hw : ∑ c ∈ s, |w c| ≤ d) (ha : |a| ≤ A) (hdA : d ≤ A)
    (hm : ∑ c ∈ s, |m c| ≤ 2 * A) (hN : (s.card : ℚ) ≤ N) :
    ∑ c ∈ s, m c - a / d * ∑ c ∈ s, w c - (6 * u * A + 3 * η * (A + N)) ≤ ∑ c ∈ s, q c := by
  have hA : 0 < A := hd.trans_le hdA
  have hN0 : 0 ≤ N := le_trans (by positivity) hN
  set X := ∑ c ∈ s, |w c| with hX
  have hX0 : 0 ≤ X := Finset.sum_nonneg fun _ _ => abs_nonneg _
  have hρ : |a / d| * X ≤ A := by
    calc |a / d| * X ≤ |a / d| * d := mul_le_mul_of_nonneg_left hw (abs_nonneg _)
      _ = |a| := by rw [abs_div, abs_of_pos hd, div_mul_cancel₀ _ hd.ne']
      _ ≤ A := ha
  have hlabs : |l| ≤ |a / d| + (u * |a / d| + η) := by
    have := abs_add_le (l - a / d) (a / d)
    rw [sub_add_cancel] at this
    linarith
  have hlX : |l| * X ≤ A + u * A + η * A := by
    have h1 := mul_le_mul_of_nonneg_right hlabs hX0
    have h2 := mul_le_mul_of_nonneg_left hρ hu
    have h3 := mul_le_mul_of_nonneg_left (hw.trans hdA) hη
    nlinarith
  have hpt : ∀ c ∈ s, m c - a / d * w c - ((u * |a / d| + η) * |w c| + (1 + u) * (u * (|l| * |w c|) + η) +
      u * (|m c| + |l| * |w c|) + η) ≤ q c := by
    intro c hc
    have h1 := hp c hc
    have h2 := hq c hc
    rw [abs_mul] at h1
    have h3 : |m c - p c| ≤ |m c| + (|l| * |w c| + (u * (|l| * |w c|) + η)) := by
      have h4 := abs_sub (m c) (p c)
      have h5 := abs_add_le (p c - l * w c) (l * w c)
      rw [sub_add_cancel, abs_mul] at h5
      linarith
    have h4 := mul_le_mul_of_nonneg_left h3 hu
    have h5 : |(l - a / d) * w c| ≤ (u * |a / d| + η) * |w c| := by
      rw [abs_mul]
      exact mul_le_mul_of_nonneg_right hl (abs_nonneg _)
    have h6 := (abs_le.mp h5).2
    have h7 := (abs_le.mp h1).2
    have h8 := (abs_le.mp h2).1
    nlinarith
  have hsum := Finset.sum_le_sum hpt
  simp only [Finset.sum_sub_distrib, Finset.sum_add_distrib, ← Finset.mul_sum, Finset.sum_const, nsmul_eq_mul, mul_add,
    add_mul, one_mul] at hsum
  rw [← hX] at hsum
  have k1 := mul_le_mul_of_nonneg_left hρ hu
  have k2 := mul_le_mul_of_nonneg_left hlX hu
  have k3 := mul_le_mul_of_nonneg_left hm hu
  have k4 := mul_le_mul_of_nonneg_left (hw.trans hdA) hη
  have k5 := mul_le_mul_of_nonneg_right hN hη
  have k6 := mul_le_mul_of_nonneg_left k2 hu
  have k7 := mul_le_mul_of_nonneg_left k5 hu
  have uA : 0 ≤ u * A := by positivity
  have uuA : u * (u * A) ≤ 1 / 8 * (u * A) := mul_le_mul_of_nonneg_right hu' uA
  have ηA : 0 ≤ η * A := by positivity
  have uηA : u * (η * A) ≤ 1 / 8 * (η * A) := mul_le_mul_of_nonneg_right hu' ηA
  have ηN : 0 ≤ N * η := by positivity
  have uηN : u * (N * η) ≤ 1 / 8 * (N * η) := mul_le_mul_of_nonneg_right hu' ηN
  have uuuA : u * (u * (u * A)) ≤ 1 / 8 * (1 / 8 * (u * A)) := by
    calc u * (u * (u * A)) ≤ u * (1 / 8 * (u * A)) := mul_le_mul_of_nonneg_left uuA hu
      _ ≤ 1 / 8 * (1 / 8 * (u * A)) := mul_le_mul_of_nonneg_right hu' (by positivity)
  have uuηA : u * (u * (η * A)) ≤ 1 / 8 * (1 / 8 * (η * A)) := by
    calc u * (u * (η * A)) ≤ u * (1 / 8 * (η * A)) := mul_le_mul_of_nonneg_left uηA hu
      _ ≤ 1 / 8 * (1 / 8 * (η * A)) := mul_le_mul_of_nonneg_right hu' (by positivity)
  nlinarith

/-- The matrix before step `i` of the elimination. -/
structure Dominated {n : Nat} (t A S : ℚ) (Q : Fin n → Fin n → ℚ) (i : Nat) : Prop where
  off : ∀ r c, r ≠ c → Q r c ≤ 0
  done : ∀ r : Fin n, r.1 < i → t ≤ Q r r
  rest : ∀ r : Fin n, i ≤ r.1 → S ≤ ∑ c ∈ Finset.univ.filter fun c : Fin n => i ≤ c.1, Q r c
  top : ∀ r : Fin n, i ≤ r.1 → Q r r ≤ A
  double : ∀ r : Fin n, i ≤ r.1 → binary64 (Q r r) = .fin (Q r r)

theorem row_abs {ι : Type} [DecidableEq ι] (s : Finset ι) {r : ι} (hr : r ∈ s) {f : ι → ℚ} (hf : ∀ c, r ≠ c → f c ≤ 0) :
    ∑ c ∈ s.erase r, |f c| = f r - ∑ c ∈ s, f c := by
  rw [← Finset.add_sum_erase s f hr, Finset.sum_congr rfl fun c hc => abs_of_nonpos (hf c (Finset.ne_of_mem_erase hc).symm),
    Finset.sum_neg_distrib]
  ring

theorem above_erase {n : Nat} (i : Fin n) :
    (Finset.univ.filter fun c : Fin n => i.1 ≤ c.1).erase i = Finset.univ.filter fun c : Fin n => i.1 + 1 ≤ c.1 := by
  ext c
  simp only [Finset.mem_erase, Finset.mem_filter, Finset.mem_univ, true_and, ne_eq, Fin.ext_iff]
  omega

theorem step_row {n : Nat} {u η R : ℚ} (hf : Fine binary64 u η R) {t A S : ℚ} (ht : 0 < t) (hS : t ≤ S) (hA : A ≤ t * R)
    (hR : 8 * A + 1 ≤ R) {Q : Fin n → Fin n → ℚ} {i : Fin n} (h : Dominated t A S Q i.1) {r : Fin n} (hr : i < r) :
    ∃ (l : ℚ) (q : Fin n → ℚ), (fin (Q r i) : Num binary64) / fin (Q i i) = fin l ∧
      (∀ c, i < c → (fin (Q r c) : Num binary64) - fin l * fin (Q i c) = fin (q c)) ∧ l ≤ 0 ∧
      (∀ c, i < c → r ≠ c → q c ≤ 0) ∧ q r ≤ Q r r ∧ binary64 (q r) = .fin (q r) ∧
      S - (6 * u * A + 3 * η * (A + n)) ≤ ∑ c ∈ Finset.univ.filter fun c : Fin n => i.1 + 1 ≤ c.1, q c := by
  have hu := hf.rounds.u_nonneg
  have hη := hf.rounds.η_nonneg
  have hus : u ≤ 1 / 8 := hf.u_small.trans (by norm_num)
  have hηs : η ≤ 1 := hf.η_small.trans (by norm_num)
  have h0 : binary64 0 = .fin 0 := by decide +kernel
  have hri : i.1 ≤ r.1 := le_of_lt hr
  set T := Finset.univ.filter fun c : Fin n => i.1 + 1 ≤ c.1 with hT
  have hsi := h.rest i le_rfl
  have hsr := h.rest r hri
  have hai := row_abs (Finset.univ.filter fun c : Fin n => i.1 ≤ c.1) (r := i) (by simp) (h.off i)
  have har := row_abs (Finset.univ.filter fun c : Fin n => i.1 ≤ c.1) (r := r) (by simpa using hri) (h.off r)
  have hsplit := Finset.add_sum_erase (Finset.univ.filter fun c : Fin n => i.1 ≤ c.1) (Q r) (a := i) (by simp)
  have hspliti := Finset.add_sum_erase (Finset.univ.filter fun c : Fin n => i.1 ≤ c.1) (Q i) (a := i) (by simp)
  have hsplita := Finset.add_sum_erase (Finset.univ.filter fun c : Fin n => i.1 ≤ c.1) (fun c => |Q r c|) (a := i) (by simp)
  have hsplitr := Finset.add_sum_erase (Finset.univ.filter fun c : Fin n => i.1 ≤ c.1) (fun c => |Q r c|) (a := r)
    (by simpa using hri)
  rw [above_erase, ← hT] at hai hsplit hspliti hsplita
  generalize ∑ c ∈ Finset.univ.filter (fun c : Fin n => i.1 ≤ c.1), Q r c = sr at *
  generalize ∑ c ∈ Finset.univ.filter (fun c : Fin n => i.1 ≤ c.1), Q i c = si at *
  have hpos : 0 ≤ ∑ c ∈ (Finset.univ.filter fun c : Fin n => i.1 ≤ c.1).erase r, |Q r c| :=
    Finset.sum_nonneg fun _ _ => abs_nonneg _
  have hposi : 0 ≤ ∑ c ∈ T, |Q i c| := Finset.sum_nonneg fun _ _ => abs_nonneg _
  have hd : t ≤ Q i i := by linarith
  have hd0 : 0 < Q i i := ht.trans_le hd
  have hdA := h.top i le_rfl
  have hrA := h.top r hri
  have hrr : 0 < Q r r := by linarith
  have ha0 : Q r i ≤ 0 := h.off r i (ne_of_gt hr)
  have hX : ∑ c ∈ T, |Q i c| ≤ Q i i := by linarith
  have hm : ∑ c ∈ T, |Q r c| ≤ 2 * A := by
    have := abs_nonneg (Q r i)
    rw [abs_of_pos hrr] at hsplitr
    linarith
  have hrow : ∀ c, i.1 ≤ c.1 → |Q r c| ≤ A := by
    intro c hc
    by_cases hrc : c = r
    · subst hrc
      rwa [abs_of_pos hrr]
    · have := Finset.single_le_sum (f := fun c => |Q r c|) (s := (Finset.univ.filter fun c : Fin n => i.1 ≤ c.1).erase r)
        (fun _ _ => abs_nonneg _) (Finset.mem_erase.mpr ⟨hrc, Finset.mem_filter.mpr ⟨Finset.mem_univ _, hc⟩⟩)
      linarith
  have hari := hrow i le_rfl
  have hA0 : 0 < A := hd0.trans_le hdA
  -- the multiplier
  have hquot : |Q r i / Q i i| ≤ R := by
    rw [abs_div, abs_of_pos hd0, div_le_iff₀ hd0]
    have hR0 : 0 ≤ R := by linarith
    have := mul_le_mul_of_nonneg_right hd hR0
    linarith
  obtain ⟨l, hl⟩ := hf.range _ hquot
  have hl0 : l ≤ 0 := binary64_fin_mono (div_nonpos_of_nonpos_of_nonneg ha0 hd0.le) hl h0
  have hle := hf.rounds.error _ _ hl
  have hlabs : |l| * Q i i ≤ 3 * A := by
    have h1 : |l| ≤ |Q r i / Q i i| + (u * |Q r i / Q i i| + η) := by
      have := abs_add_le (l - Q r i / Q i i) (Q r i / Q i i)
      rw [sub_add_cancel] at this
      linarith
    have h2 := mul_le_mul_of_nonneg_right h1 hd0.le
    have h3 : |Q r i / Q i i| * Q i i = |Q r i| := by rw [abs_div, abs_of_pos hd0, div_mul_cancel₀ _ hd0.ne']
    have h4 : u * |Q r i| ≤ 1 * A := mul_le_mul (by linarith) hari (abs_nonneg _) (by norm_num)
    have h5 : η * Q i i ≤ 1 * A := mul_le_mul hηs hdA hd0.le (by norm_num)
    nlinarith
  have hw : ∀ c, i < c → |l * Q i c| ≤ 3 * A := by
    intro c hc
    have h1 : |Q i c| ≤ Q i i := by
      have := Finset.single_le_sum (f := fun c => |Q i c|) (fun _ _ => abs_nonneg _)
        (show c ∈ T from Finset.mem_filter.mpr ⟨Finset.mem_univ _, hc⟩)
      linarith
    rw [abs_mul]
    exact (mul_le_mul_of_nonneg_left h1 (abs_nonneg _)).trans hlabs
  have hp : ∀ c, ∃ p, i < c → binary64 (l * Q i c) = .fin p := by
    intro c
    by_cases hc : i < c
    · obtain ⟨p, hp⟩ := hf.range _ ((hw c hc).trans (by linarith))
      exact ⟨p, fun _ => hp⟩
    · exact ⟨0, fun h => absurd h hc⟩
  choose p hp using hp
  have hp0 : ∀ c, i < c → 0 ≤ p c := fun c hc =>
    binary64_fin_mono (mul_nonneg_of_nonpos_of_nonpos hl0 (h.off i c (ne_of_lt hc))) h0 (hp c hc)
  have hpA : ∀ c, i < c → |p c| ≤ 5 * A + 1 := by
    intro c hc
    have h1 := hf.rounds.error _ _ (hp c hc)
    have h2 := abs_add_le (p c - l * Q i c) (l * Q i c)
    rw [sub_add_cancel] at h2
    have h3 := hw c hc
    have h4 : u * |l * Q i c| ≤ 1 / 8 * (3 * A) := mul_le_mul hus h3 (abs_nonneg _) (by norm_num)
    linarith
  have hq : ∀ c, ∃ q, i < c → binary64 (Q r c - p c) = .fin q := by
    intro c
    by_cases hc : i < c
    · obtain ⟨q, hq⟩ := hf.range (Q r c - p c) (by
        have h1 := abs_sub (Q r c) (p c)
        have h2 := hrow c (le_of_lt hc)
        have h3 := hpA c hc
        linarith)
      exact ⟨q, fun _ => hq⟩
    · exact ⟨0, fun h => absurd h hc⟩
  choose q hq using hq
  refine ⟨l, q, div64 hd0.ne' hl, fun c hc => ?_, hl0, fun c hc hrc => ?_, ?_, binary64_idem (hq r hr), ?_⟩
  · rw [mul64 (hp c hc), sub64 (hq c hc)]
  · exact binary64_fin_mono (by have := h.off r c hrc; have := hp0 c hc; linarith) (hq c hc) h0
  · exact binary64_fin_mono (by have := hp0 r hr; linarith) (hq r hr) (h.double r hri)
  · have hT' : ∀ c ∈ T, i < c := fun c hc => by
      rw [hT] at hc
      simpa using hc
    have hcard : (T.card : ℚ) ≤ n := by
      have := Finset.card_le_univ T
      rw [Fintype.card_fin] at this
      exact_mod_cast this
    have key := row_loss T (m := Q r) (q := q) (w := Q i) (p := p) hu hus hη hd0 hle
      (fun c hc => hf.rounds.error _ _ (hp c (hT' c hc))) (fun c hc => hf.rounds.error _ _ (hq c (hT' c hc))) hX hari hdA hm
      hcard
    have e1 : ∑ c ∈ T, Q r c = sr - Q r i := by linarith
    have e2 : ∑ c ∈ T, Q i c = si - Q i i := by linarith
    rw [e1, e2] at key
    have e3 : Q r i / Q i i * (si - Q i i) = Q r i / Q i i * si - Q r i := by field_simp
    have e4 : Q r i / Q i i * si ≤ 0 := mul_nonpos_of_nonpos_of_nonneg (div_nonpos_of_nonpos_of_nonneg ha0 hd0.le) (by linarith)
    rw [e3] at key
    linarith

theorem step_dominated {n : Nat} {u η R : ℚ} (hf : Fine binary64 u η R) {t A S : ℚ} (ht : 0 < t) (hS : t ≤ S) (hA : A ≤ t * R)
    (hR : 8 * A + 1 ≤ R) {Q : Fin n → Fin n → ℚ} {i : Fin n} (h : Dominated t A S Q i.1) :
    ∃ Q' : Fin n → Fin n → ℚ, elim (fun r c => (fin (Q r c) : Num binary64)) i = (fun r c => fin (Q' r c)) ∧
      Dominated t A (S - (6 * u * A + 3 * η * (A + n))) Q' (i.1 + 1) := by
  have hrow : ∀ r, ∃ (l : ℚ) (q : Fin n → ℚ), i < r → (fin (Q r i) : Num binary64) / fin (Q i i) = fin l ∧
      (∀ c, i < c → (fin (Q r c) : Num binary64) - fin l * fin (Q i c) = fin (q c)) ∧ l ≤ 0 ∧
      (∀ c, i < c → r ≠ c → q c ≤ 0) ∧ q r ≤ Q r r ∧ binary64 (q r) = .fin (q r) ∧
      S - (6 * u * A + 3 * η * (A + n)) ≤ ∑ c ∈ Finset.univ.filter fun c : Fin n => i.1 + 1 ≤ c.1, q c := by
    intro r
    by_cases hr : i < r
    · obtain ⟨l, q, h1⟩ := step_row hf ht hS hA hR h hr
      exact ⟨l, q, fun _ => h1⟩
    · exact ⟨0, fun _ => 0, fun h => absurd h hr⟩
  choose l q hlq using hrow
  refine ⟨fun r c => if i < r then (if c = i then l r else if i < c then q r c else Q r c) else Q r c, ?_, ?_⟩
  · funext r c
    unfold elim
    by_cases hr : i < r
    · obtain ⟨h1, h2, -⟩ := hlq r hr
      simp only [hr, if_true]
      by_cases hc : c = i
      · simp only [hc, if_true]
        exact h1
      · simp only [hc, if_false]
        by_cases hc' : i < c
        · simp only [hc', if_true]
          rw [h1]
          exact h2 c hc'
        · simp only [hc', if_false]
    · simp only [hr, if_false]
  · constructor
    · intro r c hrc
      by_cases hr : i < r
      · obtain ⟨-, -, h3, h4, -⟩ := hlq r hr
        simp only [hr, if_true]
        split
        · exact h3
        · split
          · rename_i hc
            exact h4 c hc hrc
          · exact h.off r c hrc
      · simp only [hr, if_false]
        exact h.off r c hrc
    · intro r hr
      have : ¬ i < r := fun h => by have : i.1 < r.1 := h; omega
      simp only [this, if_false]
      by_cases hri : r.1 < i.1
      · exact h.done r hri
      · obtain rfl : r = i := Fin.ext (by omega)
        have h1 := h.rest r le_rfl
        have h2 := row_abs (Finset.univ.filter fun c : Fin n => r.1 ≤ c.1) (r := r) (by simp) (h.off r)
        have h3 : 0 ≤ ∑ c ∈ (Finset.univ.filter fun c : Fin n => r.1 ≤ c.1).erase r, |Q r c| :=
          Finset.sum_nonneg fun _ _ => abs_nonneg _
        linarith
    · intro r hr
      have hir : i < r := hr
      obtain ⟨-, -, -, -, -, -, h7⟩ := hlq r hir
      refine h7.trans (le_of_eq (Finset.sum_congr rfl fun c hc => ?_))
      have hc' : i < c := by simpa using hc
      simp only [hir, if_true, hc', ne_of_gt hc', if_false]
    · intro r hr
      have hir : i < r := hr
      obtain ⟨-, -, -, -, h5, -⟩ := hlq r hir
      simp only [hir, if_true, ne_of_gt hir, if_false]
      exact h5.trans (h.top r (by omega))
    · intro r hr
      have hir : i < r := hr
      obtain ⟨-, -, -, -, -, h6, -⟩ := hlq r hir
      simp only [hir, if_true, ne_of_gt hir, if_false]
      exact h6

/-- The factorisation of a dominant matrix with nonpositive elements off the diagonal. -/
theorem factorise_dominated {n : Nat} {u η R : ℚ} (hf : Fine binary64 u η R) {t A S : ℚ} (ht : 0 < t)
    (hS : t + n * (6 * u * A + 3 * η * (A + n)) ≤ S) (hA : A ≤ t * R) (hA0 : 0 ≤ A)
    (hR : 8 * A + 1 ≤ R) {B : Fin n → Fin n → ℚ} (h : Dominated t A S B 0) (s : Lu (Num binary64)) (hs : s.tol = fin t) :
    ∃ (M : Fin n → Fin n → ℚ),
      factorise (Num.arith binary64) false s (mat fun r c => (fin (B r c) : Num binary64)) =
        .ok ({ s with factorised := true, lu := mat (fun r c => (fin (M r c) : Num binary64)) }, true) ∧
      (∀ r c, r ≠ c → M r c ≤ 0) ∧ ∀ r, t ≤ M r r := by
  set E := 6 * u * A + 3 * η * (A + n) with hE
  have hu := hf.rounds.u_nonneg
  have hη := hf.rounds.η_nonneg
  have hE0 : 0 ≤ E := by positivity
  obtain ⟨_, h2, M, rfl, h3⟩ := loop_inv (n := n) (body := factoriseBody (Num.arith binary64) false s.tol)
    (s := (mat (fun r c => (fin (B r c) : Num binary64)), s.piv, true))
    (fun i t' => ∃ (M : Fin n → Fin n → ℚ), t' = (mat (fun r c => (fin (M r c) : Num binary64)), s.piv, true) ∧
      Dominated t A (S - i * E) M i)
    ⟨B, rfl, by simpa using h⟩ (by
      rintro i t' hi ⟨M, rfl, h3⟩
      have hin : (i : ℚ) * E ≤ n * E := mul_le_mul_of_nonneg_right (by exact_mod_cast hi.le) hE0
      obtain ⟨M', e1, h4⟩ := step_dominated hf (i := ⟨i, hi⟩) ht (S := S - i * E) (by linarith) hA hR h3
      refine ⟨_, ?_, M', rfl, ?_⟩
      · have hd : t ≤ M ⟨i, hi⟩ ⟨i, hi⟩ := by
          have := h4.done ⟨i, hi⟩ (by simp)
          have h5 := congrFun (congrFun e1 ⟨i, hi⟩) ⟨i, hi⟩
          rw [elim_same _ (.inl le_rfl), fin_inj] at h5
          rwa [h5]
        have hlt : (Num.arith binary64).lt ((Num.arith binary64).abs (fin (M ⟨i, hi⟩ ⟨i, hi⟩) : Num binary64)) s.tol = false := by
          rw [hs]
          show decide (|M ⟨i, hi⟩ ⟨i, hi⟩| < t) = false
          simpa using hd.trans (le_abs_self _)
        unfold factoriseBody
        simp only [if_true, Bool.false_eq_true, if_false, Out.pure_eq, Out.ok_bind, rd2_mat _ hi hi, hlt, mat_length]
        have := eliminate_ok (fun r c => (fin (M r c) : Num binary64)) ⟨i, hi⟩
        simp only at this
        rw [this, e1]
        rfl
      · have e : S - ((i + 1 : ℕ) : ℚ) * E = S - i * E - E := by push_cast; ring
        rw [e]
        exact h4)
  refine ⟨M, ?_, h3.off, fun r => h3.done r r.2⟩
  unfold factorise
  rw [mat_length]
  simp only [Bool.false_eq_true, if_false]
  rw [h2]
  rfl

/-- The room that the errors need. -/
theorem dominant_room {n : Nat} {t A : ℚ} (ht : 1 / 2 ^ 100 ≤ t) (hn : n ≤ 2 ^ 50) (hA : A ≤ 2 ^ 900)
    {B : Fin n → Fin n → ℚ} (hd : ∀ r, B r r ≤ A ∧ binary64 (B r r) = .fin (B r r)) (ho : ∀ r c, r ≠ c → B r c ≤ 0)
    (hs : ∀ r, t + n * A / 2 ^ 50 ≤ ∑ c, B r c) :
    ∃ A' S : ℚ, t + n * (6 * (1 / 2 ^ 53) * A' + 3 * (1 / 2 ^ 1075) * (A' + n)) ≤ S ∧ A' ≤ t * 2 ^ 1023 ∧ 0 ≤ A' ∧ 8 * A' + 1 ≤ 2 ^ 1023 ∧
      Dominated t A' S B 0 := by
  have ht0 : 0 < t := lt_of_lt_of_le (by positivity) ht
  rcases Nat.eq_zero_or_pos n with rfl | hn0
  · exact ⟨0, t, by simp, by positivity, le_rfl, by rw [mul_zero, zero_add]; exact one_le_pow₀ (by norm_num),
      ⟨fun r => r.elim0, fun r => r.elim0, fun r => r.elim0, fun r => r.elim0, fun r => r.elim0⟩⟩
  have hrow := row_abs Finset.univ (Finset.mem_univ (⟨0, hn0⟩ : Fin n)) (ho ⟨0, hn0⟩)
  have hnn : 0 ≤ ∑ c ∈ Finset.univ.erase (⟨0, hn0⟩ : Fin n), |B ⟨0, hn0⟩ c| := Finset.sum_nonneg fun _ _ => abs_nonneg _
  have h0 := hs ⟨0, hn0⟩
  have hd0 := (hd ⟨0, hn0⟩).1
  have hnq : (1 : ℚ) ≤ n := by exact_mod_cast hn0
  have hA0 : 0 ≤ A := by
    by_contra hneg
    have h1 : (n : ℚ) * A / 2 ^ 50 ≤ B ⟨0, hn0⟩ ⟨0, hn0⟩ - t := by linarith
    have h2 : (n : ℚ) ≤ 2 ^ 50 := by exact_mod_cast hn
    have h3 : A ≤ n * A / 2 ^ 50 := by
      rw [le_div_iff₀ (by positivity)]
      nlinarith [not_le.mp hneg]
    linarith
  have htA : t ≤ A := by
    have : 0 ≤ n * A / 2 ^ 50 := by positivity
    linarith
  have hpow : (2 : ℚ) ^ 1075 = 2 ^ 150 * 2 ^ 925 := by rw [← pow_add]
  have hE : 6 * (1 / 2 ^ 53) * A + 3 * (1 / 2 ^ 1075) * (A + n) ≤ A / 2 ^ 50 := by
    have h2 : (n : ℚ) ≤ 2 ^ 50 := by exact_mod_cast hn
    have h3 : (n : ℚ) ≤ 2 ^ 150 * A := by
      have : (2 : ℚ) ^ 150 * (1 / 2 ^ 100) ≤ 2 ^ 150 * A := mul_le_mul_of_nonneg_left (ht.trans htA) (by positivity)
      calc (n : ℚ) ≤ 2 ^ 50 := h2
        _ = 2 ^ 150 * (1 / 2 ^ 100) := by norm_num
        _ ≤ _ := this
    have h4 : A + n ≤ 2 ^ 151 * A := by
      have : A ≤ 2 ^ 150 * A := le_mul_of_one_le_left hA0 (by norm_num)
      calc A + n ≤ 2 ^ 150 * A + 2 ^ 150 * A := add_le_add this h3
        _ = _ := by ring
    have h5 : 3 * (1 / 2 ^ 1075) * (A + n) ≤ 3 * (1 / 2 ^ 1075) * (2 ^ 151 * A) := mul_le_mul_of_nonneg_left h4 (by positivity)
    have h6 : (3 : ℚ) * (1 / 2 ^ 1075) * (2 ^ 151 * A) = 6 * (1 / 2 ^ 925) * A := by
      rw [hpow, pow_succ 2 150]
      field_simp
      ring
    have h7 : (1 / 2 ^ 925 : ℚ) ≤ 1 / 2 ^ 60 :=
      one_div_le_one_div_of_le (by positivity) (pow_le_pow_right₀ (by norm_num) (by norm_num))
    have h8 : 6 * (1 / 2 ^ 925) * A ≤ 6 * (1 / 2 ^ 60) * A := by gcongr
    generalize (1 / 2 ^ 1075 : ℚ) = e at *
    generalize (1 / 2 ^ 925 : ℚ) = e' at *
    have h9 : A / 2 ^ 50 = 8 * (1 / 2 ^ 53) * A := by ring
    have h10 : 6 * (1 / 2 ^ 60) * A ≤ 2 * (1 / 2 ^ 53) * A := mul_le_mul_of_nonneg_right (by norm_num) hA0
    linarith
  refine ⟨A, t + n * A / 2 ^ 50, ?_, ?_, hA0, ?_, ?_⟩
  · have := mul_le_mul_of_nonneg_left hE (show (0 : ℚ) ≤ n by positivity)
    rw [mul_div_assoc]
    linarith
  · calc A ≤ 2 ^ 900 := hA
      _ ≤ 1 / 2 ^ 100 * 2 ^ 1023 := by
        rw [show (1023 : ℕ) = 100 + 923 from rfl, pow_add, ← mul_assoc, one_div_mul_cancel (by positivity), one_mul]
        exact pow_le_pow_right₀ (by norm_num) (by norm_num)
      _ ≤ t * 2 ^ 1023 := mul_le_mul_of_nonneg_right ht (by positivity)
  · have h1 : (8 : ℚ) * 2 ^ 900 + 1 ≤ 2 ^ 904 := by
      rw [show (904 : ℕ) = 900 + 4 from rfl, pow_add]
      have : (1 : ℚ) ≤ 2 ^ 900 := one_le_pow₀ (by norm_num)
      generalize (2 : ℚ) ^ 900 = p at *
      norm_num
      linarith
    have h2 : (2 : ℚ) ^ 904 ≤ 2 ^ 1023 := pow_le_pow_right₀ (by norm_num) (by norm_num)
    generalize (2 : ℚ) ^ 904 = p at *
    generalize (2 : ℚ) ^ 1023 = p' at *
    generalize (2 : ℚ) ^ 900 = p'' at *
    linarith
  · exact ⟨ho, fun r hr => absurd hr (Nat.not_lt_zero _), fun r _ => by simpa using hs r, fun r _ => (hd r).1, fun r _ => (hd r).2⟩

theorem factorise_dominant64 {n : Nat} {t A : ℚ} (ht : 1 / 2 ^ 100 ≤ t) (hn : n ≤ 2 ^ 50) (hA : A ≤ 2 ^ 900)
    {B : Fin n → Fin n → ℚ} (hd : ∀ r, B r r ≤ A ∧ binary64 (B r r) = .fin (B r r)) (ho : ∀ r c, r ≠ c → B r c ≤ 0)
    (hs : ∀ r, t + n * A / 2 ^ 50 ≤ ∑ c, B r c) (s : Lu (Num binary64)) (htol : s.tol = fin t) :
    ∃ (M : Fin n → Fin n → ℚ),
      factorise (Num.arith binary64) false s (mat fun r c => (fin (B r c) : Num binary64)) =
        .ok ({ s with factorised := true, lu := mat (fun r c => (fin (M r c) : Num binary64)) }, true) ∧
      (∀ r c, r ≠ c → M r c ≤ 0) ∧ ∀ r, t ≤ M r r := by
  have ht0 : 0 < t := lt_of_lt_of_le (by positivity) ht
  obtain ⟨A', S, h1, h2, h3, h4, h5⟩ := dominant_room ht hn hA hd ho hs
  exact factorise_dominated fine_binary64 ht0 h1 h2 h3 h4 h5 s htol

/-! ### The property -/

/-- C198: without pivoting, a matrix of doubles with nonpositive elements off the diagonal and positive sums of the rows is
accepted, and the solution rises with the right hand side. -/
theorem c198_between {n : Nat} {t A : ℚ} (ht : 1 / 2 ^ 100 ≤ t) (hn : n ≤ 2 ^ 50) (hA : A ≤ 2 ^ 900)
    {B : Fin n → Fin n → ℚ} (hd : ∀ r, B r r ≤ A ∧ binary64 (B r r) = .fin (B r r)) (ho : ∀ r c, r ≠ c → B r c ≤ 0)
    (hs : ∀ r, t + n * A / 2 ^ 50 ≤ ∑ c, B r c) (s : Lu (Num binary64)) (htol : s.tol = fin t) :
    ∃ s' : Lu (Num binary64),
      factorise (Num.arith binary64) false s (mat fun r c => (fin (B r c) : Num binary64)) = .ok (s', true) ∧
      ∀ (b1 b2 b3 x1 x3 : Fin n → ℚ) (z1 z2 z3 : List (Num binary64)), (∀ r, b1 r ≤ b2 r ∧ b2 r ≤ b3 r) →
        Lu.solve false s' z1 (some (vec fun r => (fin (b1 r) : Num binary64))) = .ok (vec (fun r => fin (x1 r)), true, 1) →
        Lu.solve false s' z3 (some (vec fun r => (fin (b3 r) : Num binary64))) = .ok (vec (fun r => fin (x3 r)), true, 1) →
        ∃ x2 : Fin n → ℚ,
          Lu.solve false s' z2 (some (vec fun r => (fin (b2 r) : Num binary64))) = .ok (vec (fun r => fin (x2 r)), true, 1) ∧
          ∀ r, x1 r ≤ x2 r ∧ x2 r ≤ x3 r := by
  have ht0 : 0 < t := lt_of_lt_of_le (by positivity) ht
  obtain ⟨M, h1, h2, h3⟩ := factorise_dominant64 ht hn hA hd ho hs s htol
  refine ⟨_, h1, ?_⟩
  intro b1 b2 b3 x1 x3 z1 z2 z3 hb e1 e3
  have sol := fun (b : Fin n → ℚ) z => solve_any false
    { s with factorised := true, lu := mat (fun r c => (fin (M r c) : Num binary64)) }
    (fun r c => (fin (M r c) : Num binary64)) rfl rfl 1 (by simp) (fun _ => rfl) (fun r => (fin (b r) : Num binary64)) z
  obtain ⟨y1, w1, k1, p1, q1⟩ := sol b1 z1
  obtain ⟨y2, w2, k2, p2, q2⟩ := sol b2 z2
  obtain ⟨y3, w3, k3, p3, q3⟩ := sol b3 z3
  rw [k1] at e1
  rw [k3] at e3
  simp only [Out.ok.injEq, Prod.mk.injEq, and_true] at e1 e3
  have v1 : ∀ r, w1 r = fin (x1 r) := fun r => congrFun (vec_inj.mp e1) r
  have v3 : ∀ r, w3 r = fin (x3 r) := fun r => congrFun (vec_inj.mp e3) r
  have key := sweeps_between (fun r => ht0.trans_le (h3 r)) h2
    (fun r => ⟨b1 r, b2 r, b3 r, rfl, rfl, rfl, (hb r).1, (hb r).2⟩) p1 p2 p3 q1 q2 q3
    (fun r => ⟨_, v1 r⟩) (fun r => ⟨_, v3 r⟩)
  choose l x2 u a1 a2 a3 a4 a5 using key
  refine ⟨x2, ?_, fun r => ?_⟩
  · rw [k2, show w2 = fun r => fin (x2 r) from funext a2]
  · have c1 := (a1 r).symm.trans (v1 r)
    have c3 := (a3 r).symm.trans (v3 r)
    rw [fin_inj] at c1 c3
    rw [← c1, ← c3]
    exact ⟨a4 r, a5 r⟩

/-- C198: the solution for a right hand side without negative numbers has no negative numbers. -/
theorem c198_nonneg {n : Nat} {t A : ℚ} (ht : 1 / 2 ^ 100 ≤ t) (hn : n ≤ 2 ^ 50) (hA : A ≤ 2 ^ 900)
    {B : Fin n → Fin n → ℚ} (hd : ∀ r, B r r ≤ A ∧ binary64 (B r r) = .fin (B r r)) (ho : ∀ r c, r ≠ c → B r c ≤ 0)
    (hs : ∀ r, t + n * A / 2 ^ 50 ≤ ∑ c, B r c) (s s' : Lu (Num binary64)) (htol : s.tol = fin t) {ok : Bool}
    (hf : factorise (Num.arith binary64) false s (mat fun r c => (fin (B r c) : Num binary64)) = .ok (s', ok))
    {b x : Fin n → ℚ} (hb : ∀ r, 0 ≤ b r) {z : List (Num binary64)}
    (hx : Lu.solve false s' z (some (vec fun r => (fin (b r) : Num binary64))) = .ok (vec (fun r => fin (x r)), true, 1))
    (r : Fin n) : 0 ≤ x r := by
  have ht0 : 0 < t := lt_of_lt_of_le (by positivity) ht
  obtain ⟨M, h1, h2, h3⟩ := factorise_dominant64 ht hn hA hd ho hs s htol
  obtain ⟨s1, g1, g2⟩ := c198_between ht hn hA hd ho hs s htol
  rw [h1] at g1
  rw [h1] at hf
  simp only [Out.ok.injEq, Prod.mk.injEq, and_true] at g1 hf
  obtain ⟨rfl, -⟩ := hf
  subst g1
  have h0 : binary64 0 = .fin 0 := by decide +kernel
  have zero_less : ∀ {f : Fin n → Num binary64} {a k : Nat}, (∀ c : Fin n, a ≤ c.1 → c.1 < a + k → f c = fin 0) →
      less (fin 0 : Num binary64) f a k = fin 0 := by
    intro f a k hf
    induction k with
    | zero => rfl
    | succ k ih =>
      unfold less
      rw [ih fun c h1 h2 => hf c h1 (by omega)]
      split
      · rw [hf _ (by simp) (by simp), sub64 (c := 0) (by rw [sub_zero, h0])]
      · rfl
  obtain ⟨y, w, k1, p1, q1⟩ := solve_any false
    { s with factorised := true, lu := mat (fun r c => (fin (M r c) : Num binary64)) }
    (fun r c => (fin (M r c) : Num binary64)) rfl rfl 1 (by simp) (fun _ => rfl) (fun _ => (fin 0 : Num binary64)) z
  have hy : ∀ k, ∀ r : Fin n, r.1 = k → y r = fin 0 := by
    intro k
    induction k using Nat.strong_induction_on with
    | _ k ih =>
      rintro r rfl
      rw [p1 r]
      exact zero_less fun c _ hc => by rw [ih c.1 (by omega) c rfl, mul64 (c := 0) (by rw [mul_zero, h0])]
  have hw : ∀ k, ∀ r : Fin n, n - 1 - r.1 = k → w r = fin 0 := by
    intro k
    induction k using Nat.strong_induction_on with
    | _ k ih =>
      rintro r rfl
      rw [q1 r, hy r.1 r rfl, zero_less fun c hc hc' => by
        rw [ih (n - 1 - c.1) (by omega) c rfl, mul64 (c := 0) (by rw [mul_zero, h0])]]
      exact div64 (ht0.trans_le (h3 r)).ne' (by rw [zero_div, h0])
  rw [show w = fun _ => fin 0 from funext fun r => hw _ r rfl] at k1
  obtain ⟨x2, e1, e2⟩ := g2 (fun _ => 0) b b (fun _ => 0) x z z z (fun r => ⟨hb r, le_rfl⟩) k1 hx
  exact (e2 r).1.trans (e2 r).2

/-- A matrix, with the default tolerance, that meets the hypotheses. -/
example : ∃ s' : Lu (Num binary64),
    factorise (Num.arith binary64) false ⟨false, fin (1 / 2 ^ 46), [], []⟩
      (mat fun r c : Fin 2 => (fin (if r = c then 3 else -1) : Num binary64)) = .ok (s', true) ∧
    ∀ (b1 b2 b3 x1 x3 : Fin 2 → ℚ) (z1 z2 z3 : List (Num binary64)), (∀ r, b1 r ≤ b2 r ∧ b2 r ≤ b3 r) →
        Lu.solve false s' z1 (some (vec fun r => (fin (b1 r) : Num binary64))) = .ok (vec (fun r => fin (x1 r)), true, 1) →
        Lu.solve false s' z3 (some (vec fun r => (fin (b3 r) : Num binary64))) = .ok (vec (fun r => fin (x3 r)), true, 1) →
        ∃ x2 : Fin 2 → ℚ,
          Lu.solve false s' z2 (some (vec fun r => (fin (b2 r) : Num binary64))) = .ok (vec (fun r => fin (x2 r)), true, 1) ∧
          ∀ r, x1 r ≤ x2 r ∧ x2 r ≤ x3 r :=
  c198_between (t := 1 / 2 ^ 46) (A := 3) (by norm_num) (by norm_num)
    (by
      have h1 : (2 : ℚ) ^ 2 ≤ 2 ^ 900 := pow_le_pow_right₀ (by norm_num) (by norm_num)
      generalize (2 : ℚ) ^ 900 = p at *
      linarith)
    (B := fun r c => if r = c then 3 else -1)
    (fun r => by simp only [if_true]; exact ⟨le_rfl, by decide +kernel⟩) (fun r c h => by simp [h])
    (fun r => by
      rw [Fin.sum_univ_two]
      revert r
      decide +kernel) _ rfl

end Disa.Props
