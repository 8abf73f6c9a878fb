import Verif.Props.LuAccurate
import Verif.Props.LuPivot
import Verif.Props.LuParts
import Mathlib.Algebra.Order.Chebyshev

/-!
# Property C213: symmetric positive definite systems of doubles without pivoting
-/

namespace Disa.Props

open Disa Spec Dense Num Lu

section

variable {n : Nat}

/-- The bilinear form of a matrix. -/
def form (A : Fin n → Fin n → ℚ) (x y : Fin n → ℚ) : ℚ := ∑ r, x r * ∑ c, A r c * y c

/-- The square of the length of a vector. -/
def sq (x : Fin n → ℚ) : ℚ := ∑ r, x r ^ 2

theorem sq_nonneg' (x : Fin n → ℚ) : 0 ≤ sq x := Finset.sum_nonneg fun _ _ => sq_nonneg _

theorem form_add_left (A : Fin n → Fin n → ℚ) (x x' y : Fin n → ℚ) : form A (x + x') y = form A x y + form A x' y := by
  simp only [form, Pi.add_apply, add_mul, Finset.sum_add_distrib]

theorem form_add_right (A : Fin n → Fin n → ℚ) (x y y' : Fin n → ℚ) : form A x (y + y') = form A x y + form A x y' := by
  simp only [form, Pi.add_apply, mul_add, Finset.sum_add_distrib]

theorem form_neg_left (A : Fin n → Fin n → ℚ) (x y : Fin n → ℚ) : form A (-x) y = -form A x y := by
  simp only [form, Pi.neg_apply, neg_mul, Finset.sum_neg_distrib]

theorem form_neg_right (A : Fin n → Fin n → ℚ) (x y : Fin n → ℚ) : form A x (-y) = -form A x y := by
  simp only [form, Pi.neg_apply, mul_neg, Finset.sum_neg_distrib]

theorem form_diff (A A' : Fin n → Fin n → ℚ) (x y : Fin n → ℚ) :
    form (fun r c => A r c - A' r c) x y = form A x y - form A' x y := by
  simp only [form, sub_mul, Finset.sum_sub_distrib, mul_sub]

theorem form_comm (A : Fin n → Fin n → ℚ) (x y : Fin n → ℚ) : form A y x = form (fun r c => A c r) x y := by
  simp only [form, Finset.mul_sum]
  rw [Finset.sum_comm]
  exact Finset.sum_congr rfl fun _ _ => Finset.sum_congr rfl fun _ _ => by ring

theorem form_bound {E : Fin n → Fin n → ℚ} {σ : ℚ} (hE : ∀ r c, |E r c| ≤ σ) (x y : Fin n → ℚ) :
    |form E x y| ≤ n * σ * (sq x + sq y) / 2 := by
  have h1 : |form E x y| ≤ ∑ r, ∑ c, σ * (x r ^ 2 + y c ^ 2) / 2 := by
    unfold form
    refine (Finset.abs_sum_le_sum_abs _ _).trans (Finset.sum_le_sum fun r _ => ?_)
    rw [Finset.mul_sum]
    refine (Finset.abs_sum_le_sum_abs _ _).trans (Finset.sum_le_sum fun c _ => ?_)
    have h2 : |x r * (E r c * y c)| = |E r c| * (|x r| * |y c|) := by rw [abs_mul, abs_mul]; ring
    have h3 : |x r| * |y c| ≤ (x r ^ 2 + y c ^ 2) / 2 := by
      rw [← sq_abs (x r), ← sq_abs (y c)]
      nlinarith [sq_nonneg (|x r| - |y c|)]
    have h4 : 0 ≤ (x r ^ 2 + y c ^ 2) / 2 := by positivity
    rw [h2, mul_div_assoc]
    exact mul_le_mul (hE r c) h3 (by positivity) ((abs_nonneg _).trans (hE r c))
  refine h1.trans (le_of_eq ?_)
  have h5 : ∀ r : Fin n, ∑ c, σ * (x r ^ 2 + y c ^ 2) / 2 = σ / 2 * (n * x r ^ 2 + sq y) := by
    intro r
    have h6 : ∀ c : Fin n, σ * (x r ^ 2 + y c ^ 2) / 2 = σ / 2 * (x r ^ 2 + y c ^ 2) := fun c => by ring
    rw [Finset.sum_congr rfl fun c _ => h6 c, ← Finset.mul_sum, Finset.sum_add_distrib, Finset.sum_const, Finset.card_univ,
      Fintype.card_fin, nsmul_eq_mul]
    rfl
  rw [Finset.sum_congr rfl fun r _ => h5 r, ← Finset.mul_sum, Finset.sum_add_distrib, Finset.sum_const, Finset.card_univ,
    Fintype.card_fin, nsmul_eq_mul, ← Finset.mul_sum]
  show σ / 2 * (n * sq x + n * sq y) = _
  ring

/-- Every vector gives the form at least `μ` times the square of its length. -/
def Coercive (A : Fin n → Fin n → ℚ) (μ : ℚ) : Prop := ∀ x, μ * sq x ≤ form A x x

theorem Coercive.near {A A' : Fin n → Fin n → ℚ} {μ e : ℚ} (h : Coercive A μ) (he : ∀ r c, |A' r c - A r c| ≤ e) :
    Coercive A' (μ - n * e) := by
  intro x
  have h1 := form_bound he x x
  have h2 := h x
  rw [form_diff] at h1
  have h3 := neg_abs_le (form A' x x - form A x x)
  have h4 : n * e * (sq x + sq x) / 2 = n * e * sq x := by ring
  rw [sub_mul]
  linarith

theorem sq_pos {x : Fin n → ℚ} (h : x ≠ 0) : 0 < sq x := by
  obtain ⟨c, hc⟩ := Function.ne_iff.mp h
  refine lt_of_lt_of_le ?_ (Finset.single_le_sum (f := fun r => x r ^ 2) (fun r _ => sq_nonneg _) (Finset.mem_univ c))
  have : x c ≠ 0 := hc
  positivity

/-- What the rows of the matrix do to a vector that the rows eliminated do not see. -/
theorem rows_apply {A M : Fin n → Fin n → ℚ} {i : Nat} (hf : Factors A 1 M i) {v : Fin n → ℚ}
    (h : ∀ k : Fin n, k.1 < i → ∑ c, upper M i k c * v c = 0) (r : Fin n) :
    ∑ c, A r c * v c = if i ≤ r.1 then ∑ c, upper M i r c * v c else 0 := by
  have h4 : ∑ c, A r c * v c = ∑ k, lower M i r k * ∑ c, upper M i k c * v c := by
    simp only [show ∀ c, A r c = ∑ k, lower M i r k * upper M i k c from hf r, Finset.sum_mul]
    rw [Finset.sum_comm]
    refine Finset.sum_congr rfl fun k _ => ?_
    rw [Finset.mul_sum]
    exact Finset.sum_congr rfl fun c _ => by ring
  rw [h4]
  have h5 : ∀ k, lower M i r k * ∑ c, upper M i k c * v c = if k = r then (if i ≤ r.1 then ∑ c, upper M i r c * v c else 0) else 0 := by
    intro k
    by_cases hk : i ≤ k.1
    · unfold lower
      by_cases hkr : k = r
      · subst hkr; simp [hk]
      · have hkr' : r ≠ k := fun h => hkr h.symm
        simp [hkr, hkr', not_lt.mpr hk]
    · rw [h k (not_le.mp hk), mul_zero]
      by_cases hkr : k = r
      · subst hkr; simp [hk]
      · simp [hkr]
  simp only [h5, Finset.sum_ite_eq', Finset.mem_univ, if_true]

/-- The vector with a one in place `c` that the rows eliminated do not see. -/
theorem schur_column {A M : Fin n → Fin n → ℚ} {i : Nat} {μ : ℚ} (hμ : 0 < μ) (hA : Coercive A μ) (hf : Factors A 1 M i)
    {c : Fin n} (hc : i ≤ c.1) :
    ∃ z : Fin n → ℚ, (∀ k : Fin n, i ≤ k.1 → z k = if k = c then 1 else 0) ∧
      ∀ r, ∑ k, A r k * z k = if i ≤ r.1 then M r c else 0 := by
  let T : (Fin n → ℚ) →ₗ[ℚ] (Fin n → ℚ) :=
    { toFun := fun v r => if r.1 < i then ∑ c, upper M i r c * v c else v r
      map_add' := by
        intro v w
        funext r
        by_cases h1 : r.1 < i
        · simp [h1, mul_add, Finset.sum_add_distrib]
        · simp [h1]
      map_smul' := by
        intro a v
        funext r
        by_cases h1 : r.1 < i
        · simp only [h1, if_true, RingHom.id_apply, Pi.smul_apply, smul_eq_mul, Finset.mul_sum]
          exact Finset.sum_congr rfl fun c _ => by ring
        · simp [h1] }
  have hT : ∀ v r, T v r = if r.1 < i then ∑ c, upper M i r c * v c else v r := fun v r => rfl
  have hinj : Function.Injective T := by
    rw [← LinearMap.ker_eq_bot, LinearMap.ker_eq_bot']
    intro v hv
    by_contra hne
    have h1 : ∀ k : Fin n, k.1 < i → ∑ c, upper M i k c * v c = 0 := fun k hk => by
      have := congrFun hv k
      rw [hT, if_pos hk] at this
      exact this
    have h2 : ∀ k : Fin n, i ≤ k.1 → v k = 0 := fun k hk => by
      have := congrFun hv k
      rw [hT, if_neg (not_lt.mpr hk)] at this
      exact this
    have h3 : form A v v = 0 := by
      refine Finset.sum_eq_zero fun r _ => ?_
      rw [rows_apply hf h1]
      by_cases hr : i ≤ r.1
      · rw [h2 r hr, zero_mul]
      · rw [if_neg hr, mul_zero]
    have h4 := hA v
    have h5 := mul_pos hμ (sq_pos hne)
    linarith
  obtain ⟨z, hz⟩ := (LinearMap.injective_iff_surjective.mp hinj) (fun k => if k = c then 1 else 0)
  have h1 : ∀ k : Fin n, k.1 < i → ∑ c, upper M i k c * z c = 0 := fun k hk => by
    have := congrFun hz k
    rw [hT, if_pos hk, if_neg (fun h => by rw [h] at hk; omega)] at this
    exact this
  have h2 : ∀ k : Fin n, i ≤ k.1 → z k = if k = c then 1 else 0 := fun k hk => by
    have := congrFun hz k
    rw [hT, if_neg (not_lt.mpr hk)] at this
    exact this
  refine ⟨z, h2, fun r => ?_⟩
  rw [rows_apply hf h1]
  by_cases hr : i ≤ r.1
  · rw [if_pos hr, if_pos hr, Finset.sum_eq_single c]
    · rw [h2 c hc, if_pos rfl, mul_one]
      unfold upper
      rw [if_neg (by omega)]
    · intro k _ hk
      by_cases hki : i ≤ k.1
      · rw [h2 k hki, if_neg hk, mul_zero]
      · unfold upper
        rw [if_pos (by omega), zero_mul]
    · intro h; exact absurd (Finset.mem_univ c) h
  · rw [if_neg hr, if_neg hr]

/-- The rest of the matrix during the elimination is no larger than its diagonal. -/
theorem schur_bounds {A M : Fin n → Fin n → ℚ} {i : Nat} {μ σ a : ℚ} (hμ : 0 < μ) (hA : Coercive A μ)
    (hσ : ∀ r c, |A r c - A c r| ≤ σ) (hn : n * σ ≤ μ) (ha : ∀ r, A r r ≤ a) (hf : Factors A 1 M i) (r c : Fin n)
    (hr : i ≤ r.1) (hc : i ≤ c.1) :
    μ ≤ M r r ∧ M r r ≤ a + n * σ / 2 ∧ |M r c| ≤ 3 / 2 * (a + n * σ / 2) := by
  have hcol : ∀ c : Fin n, i ≤ c.1 → ∃ z : Fin n → ℚ, (∀ k : Fin n, i ≤ k.1 → z k = if k = c then 1 else 0) ∧
      ∀ r, ∑ k, A r k * z k = if i ≤ r.1 then M r c else 0 := fun c hc => schur_column hμ hA hf hc
  have hσ0 : 0 ≤ σ := (abs_nonneg _).trans (hσ r r)
  have hskew : ∀ x y, |form A x y - form A y x| ≤ n * σ * (sq x + sq y) / 2 := fun x y => by
    rw [form_comm A x y, ← form_diff]
    exact form_bound hσ x y
  -- the form of two columns
  have hform : ∀ {r c : Fin n} {x z : Fin n → ℚ}, i ≤ r.1 → (∀ k : Fin n, i ≤ k.1 → x k = if k = r then 1 else 0) →
      (∀ r, ∑ k, A r k * z k = if i ≤ r.1 then M r c else 0) → form A x z = M r c := by
    intro r c x z hr hx hz
    unfold form
    rw [Finset.sum_eq_single r]
    · rw [hz, if_pos hr, hx r hr, if_pos rfl, one_mul]
    · intro k _ hk
      rw [hz]
      by_cases hki : i ≤ k.1
      · rw [hx k hki, if_neg hk, zero_mul]
      · rw [if_neg hki, mul_zero]
    · intro h; exact absurd (Finset.mem_univ r) h
  -- the diagonal
  have hdiag : ∀ {r : Fin n} {z : Fin n → ℚ}, i ≤ r.1 → (∀ k : Fin n, i ≤ k.1 → z k = if k = r then 1 else 0) →
      (∀ r', ∑ k, A r' k * z k = if i ≤ r'.1 then M r' r else 0) → μ * sq z ≤ M r r ∧ 1 ≤ sq z ∧ M r r ≤ a + n * σ / 2 := by
    intro r z hr hz1 hz2
    have h1 := hA z
    rw [hform hr hz1 hz2] at h1
    set f : Fin n → ℚ := fun k => if k.1 < i then -z k else 0 with hfd
    have he : ∀ k, (z + f) k = if k = r then 1 else 0 := by
      intro k
      by_cases hk : k.1 < i
      · simp only [hfd, Pi.add_apply, hk, if_true]
        rw [if_neg (fun h => by rw [h] at hk; omega)]
        ring
      · simp only [hfd, Pi.add_apply, hk, if_false, add_zero]
        exact hz1 k (not_lt.mp hk)
    have hArr : form A (z + f) (z + f) = A r r := by
      unfold form
      simp only [he, ite_mul, mul_ite, mul_one, mul_zero, one_mul, zero_mul, Finset.sum_ite_eq', Finset.mem_univ, if_true]
    have hfz : form A f z = 0 := by
      refine Finset.sum_eq_zero fun k _ => ?_
      rw [hz2]
      by_cases hk : k.1 < i
      · rw [if_neg (not_le.mpr hk), mul_zero]
      · simp only [hfd, hk, if_false, zero_mul]
    have hsq : sq z = 1 + sq f := by
      have : ∀ k, z k ^ 2 = (if k = r then 1 else 0) + f k ^ 2 := by
        intro k
        by_cases hk : k.1 < i
        · simp only [hfd, hk, if_true]
          rw [if_neg (fun h => by rw [h] at hk; omega)]
          ring
        · simp only [hfd, hk, if_false]
          rw [hz1 k (not_lt.mp hk)]
          split <;> norm_num
      unfold sq
      rw [Finset.sum_congr rfl fun k _ => this k, Finset.sum_add_distrib]
      simp
    have h2 := hskew z f
    have h3 := hA f
    rw [form_add_left, form_add_right, form_add_right, hform hr hz1 hz2, hfz] at hArr
    rw [hfz, sub_zero, hsq] at h2
    have h4 := neg_abs_le (form A z f)
    have h5 := sq_nonneg' f
    have h6 := mul_le_mul_of_nonneg_right hn h5
    have h7 := ha r
    refine ⟨h1, by rw [hsq]; linarith, ?_⟩
    have h8 : n * σ * (1 + sq f + sq f) / 2 = n * σ / 2 + n * σ * sq f := by ring
    linarith
  obtain ⟨x, hx1, hx2⟩ := hcol r hr
  obtain ⟨z, hz1, hz2⟩ := hcol c hc
  obtain ⟨d1, d2, d3⟩ := hdiag hr hx1 hx2
  obtain ⟨e1, e2, e3⟩ := hdiag hc hz1 hz2
  have hdr : μ ≤ M r r := (le_mul_of_one_le_right hμ.le d2).trans d1
  refine ⟨hdr, d3, ?_⟩
  have fxz := hform hr hx1 hz2
  have fzx := hform hc hz1 hx2
  have fxx := hform hr hx1 hx2
  have fzz := hform hc hz1 hz2
  have p1 := (mul_nonneg hμ.le (sq_nonneg' (x + z))).trans (hA (x + z))
  have p2 := (mul_nonneg hμ.le (sq_nonneg' (x + -z))).trans (hA (x + -z))
  rw [form_add_left, form_add_right, form_add_right, fxx, fxz, fzx, fzz] at p1
  rw [form_add_left, form_add_right, form_add_right, form_neg_left, form_neg_left, form_neg_right, form_neg_right, fxx, fxz, fzx,
    fzz] at p2
  have p3 := hskew x z
  rw [fxz, fzx] at p3
  have p4 : n * σ * (sq x + sq z) / 2 ≤ μ * (sq x + sq z) / 2 := by
    have := mul_le_mul_of_nonneg_right hn (add_nonneg (sq_nonneg' x) (sq_nonneg' z))
    linarith
  have p5 := abs_le.mp (p3.trans p4)
  rw [mul_add] at p5
  rw [abs_le]
  constructor <;> linarith [p5.1, p5.2]

/-! ### One step -/

theorem multiplier {V : Type} [Sub V] [Mul V] [Div V] {F : Arith V} {val : V → ℚ → Prop} {u η R : ℚ}
    (hf : Works F val u η R) {t G b d : ℚ} {b' d' : V} (hb' : val b' b) (hd' : val d' d) (ht : 0 < t) (hd : t ≤ d) (hdG : d ≤ G) (hb : |b| ≤ G)
    (hG : G ≤ t * R) :
    ∃ l, val (b' / d') l ∧ |l - b / d| ≤ u * |b / d| + η ∧ |l * d - b| ≤ (u + η) * G := by
  have hu := hf.u_nonneg
  have hη := hf.η_nonneg
  have hd0 : 0 < d := ht.trans_le hd
  have hR : |b / d| ≤ R := by
    rw [abs_div, abs_of_pos hd0, div_le_iff₀ hd0]
    have hR0 : 0 ≤ R := by
      by_contra h
      have := mul_neg_of_pos_of_neg ht (not_le.mp h)
      linarith
    calc |b| ≤ G := hb
      _ ≤ t * R := hG
      _ ≤ d * R := mul_le_mul_of_nonneg_right hd hR0
      _ = R * d := mul_comm _ _
  obtain ⟨l, hl, h1⟩ := hf.quot hb' hd' hd0.ne' hR
  refine ⟨l, hl, h1, ?_⟩
  have h2 : l * d - b = (l - b / d) * d := by field_simp
  rw [h2, abs_mul, abs_of_pos hd0]
  have h3 : |b / d| * d = |b| := by rw [abs_div, abs_of_pos hd0]; field_simp
  calc |l - b / d| * d ≤ (u * |b / d| + η) * d := mul_le_mul_of_nonneg_right h1 hd0.le
    _ = u * |b| + η * d := by rw [add_mul, mul_assoc, h3]
    _ ≤ u * G + η * G := add_le_add (mul_le_mul_of_nonneg_left hb hu) (mul_le_mul_of_nonneg_left hdG hη)
    _ = _ := by ring

theorem updated {V : Type} [Sub V] [Mul V] [Div V] {F : Arith V} {val : V → ℚ → Prop} {u η R : ℚ}
    (hf : Works F val u η R) {G b d e g l : ℚ} {g' l' e' : V} (hg' : val g' g) (hl' : val l' l) (he' : val e' e) (he : |e| ≤ G) (hg : |g| ≤ G) (hgl : |g - b / d * e| ≤ G)
    (hR : 8 * G + 1 ≤ R) (hl : |l - b / d| ≤ u * |b / d| + η) :
    |l * e| ≤ 9 / 4 * G ∧
      ∃ q, val (g' - l' * e') q ∧ |q - (g - l * e)| ≤ 6 * u * G + 3 * η := by
  have hu := hf.u_nonneg
  have hη := hf.η_nonneg
  have hus := hf.u_small
  have hηs := hf.η_small
  have hG0 : 0 ≤ G := (abs_nonneg _).trans he
  have h1 : |b / d * e| ≤ 2 * G := by
    have := abs_sub (g) (g - b / d * e)
    rw [sub_sub_cancel] at this
    linarith
  have huG : u * G ≤ 1 / 2 ^ 10 * G := mul_le_mul_of_nonneg_right hus hG0
  have hηG : η * G ≤ 1 / 2 ^ 60 * G := mul_le_mul_of_nonneg_right hηs hG0
  have h2 : |l * e| ≤ 9 / 4 * G := by
    have h3 : |l * e - b / d * e| ≤ u * |b / d * e| + η * |e| := by
      rw [← sub_mul, abs_mul, abs_mul (b / d)]
      have := mul_le_mul_of_nonneg_right hl (abs_nonneg e)
      linarith
    have h4 := abs_add_le (l * e - b / d * e) (b / d * e)
    rw [sub_add_cancel] at h4
    have h5 := mul_le_mul_of_nonneg_left h1 hu
    have h6 := mul_le_mul_of_nonneg_left he hη
    norm_num at huG hηG
    linarith
  refine ⟨h2, ?_⟩
  have h6 := mul_le_mul_of_nonneg_left h2 hu
  have h7 : u * (9 / 4 * G) ≤ 1 / 2 ^ 7 * G := by norm_num at huG ⊢; linarith
  obtain ⟨p, q, h3, h8, hq⟩ := hf.diff hg' hl' he' (by norm_num at h7 hηs; linarith)
  have h4 : |g - p| ≤ |g - l * e| + |p - l * e| := by
    have := abs_sub (g - l * e) (p - l * e)
    rwa [show g - l * e - (p - l * e) = g - p by ring] at this
  have h5 : |g - l * e| ≤ G + 9 / 4 * G := by
    have := abs_sub g (l * e)
    linarith
  refine ⟨q, hq, ?_⟩
  have h9 : |q - (g - l * e)| ≤ |q - (g - p)| + |p - l * e| := by
    have := abs_sub (q - (g - p)) (p - l * e)
    rwa [show q - (g - p) - (p - l * e) = q - (g - l * e) by ring] at this
  have h10 : |g - p| ≤ G + 9 / 4 * G + (1 / 2 ^ 7 * G + η) := by linarith
  have h11 := mul_le_mul_of_nonneg_left h10 hu
  have h12 : u * η ≤ 1 * η := mul_le_mul_of_nonneg_right (hus.trans (by norm_num)) hη
  have h13 : 0 ≤ u * G := by positivity
  have e1 : u * (G + 9 / 4 * G + (1 / 2 ^ 7 * G + η)) = u * G * (13 / 4 + 1 / 2 ^ 7) + u * η := by ring
  rw [e1] at h11
  norm_num at h11
  linarith

/-- The product of the factors after `i` steps. -/
def factorProduct (M : Fin n → Fin n → ℚ) (i : Nat) (r c : Fin n) : ℚ := ∑ k, lower M i r k * upper M i k c

/-- What one step changes in the product of the factors. -/
theorem product_step {M M' : Fin n → Fin n → ℚ} {i : Fin n} (hd : M i i ≠ 0) (hold : ∀ r c, ¬ i < r → M' r c = M r c)
    (hleft : ∀ r c, c < i → M' r c = M r c) (r c : Fin n) :
    factorProduct M' (i.1 + 1) r c = factorProduct M i.1 r c +
      if i < r then (if c = i then M' r i * M i i - M r i else if i < c then M' r c - (M r c - M' r i * M i c) else 0) else 0 := by
  have h0 : Factors (factorProduct M i.1) 1 M i.1 := fun _ _ => rfl
  have h1 : factorProduct M i.1 r c = ∑ k, lower (elim M i) (i.1 + 1) r k * upper (elim M i) (i.1 + 1) k c := factors_elim h0 hd r c
  have hlow : ∀ k, lower M' (i.1 + 1) r k = lower (elim M i) (i.1 + 1) r k + if k = i ∧ i < r then M' r i - M r i / M i i else 0 := by
    intro k
    unfold lower
    by_cases hrk : r = k
    · subst hrk
      rw [if_pos rfl, if_pos rfl, if_neg (fun h => by rw [h.1] at h; exact lt_irrefl _ h.2), add_zero]
    · rw [if_neg hrk, if_neg hrk]
      by_cases hk : k.1 < i.1 + 1 ∧ k < r
      · rw [if_pos hk, if_pos hk]
        by_cases hki : k = i
        · subst hki
          rw [if_pos ⟨rfl, hk.2⟩]
          unfold elim
          rw [if_pos hk.2, if_pos rfl]
          ring
        · have hlt : k < i := lt_of_le_of_ne (Nat.lt_succ_iff.mp hk.1) hki
          rw [if_neg (fun h => hki h.1), add_zero, hleft r k hlt]
          unfold elim
          rw [if_neg hki, if_neg (lt_asymm hlt)]
          split <;> rfl
      · rw [if_neg hk, if_neg hk, if_neg (fun h => hk ⟨by rw [h.1]; omega, by rw [h.1]; exact h.2⟩), add_zero]
  have hup : ∀ k, upper M' (i.1 + 1) k c = upper (elim M i) (i.1 + 1) k c +
      if i < k ∧ i < c then M' k c - (M k c - M k i / M i i * M i c) else 0 := by
    intro k
    unfold upper
    by_cases hk : i < k
    · have hk' : i.1 < k.1 := hk
      rw [show min k.1 (i.1 + 1) = i.1 + 1 by omega]
      by_cases hc : c.1 < i.1 + 1
      · rw [if_pos hc, if_pos hc, if_neg (fun h => by have : i.1 < c.1 := h.2; omega), add_zero]
      · have hc' : i < c := by show i.1 < c.1; omega
        rw [if_neg hc, if_neg hc, if_pos ⟨hk, hc'⟩]
        unfold elim
        rw [if_pos hk, if_neg hc'.ne', if_pos hc']
        ring
    · rw [if_neg (fun h : i < k ∧ i < c => hk h.1), add_zero, hold k c hk]
      unfold elim
      rw [if_neg hk]
  have hui : upper (elim M i) (i.1 + 1) i c = if c < i then 0 else M i c := by
    unfold upper elim
    rw [if_neg (lt_irrefl i), show min i.1 (i.1 + 1) = i.1 by omega]
    rfl
  rw [h1]
  unfold factorProduct
  by_cases hr : i < r
  · have hterm : ∀ k, lower M' (i.1 + 1) r k * upper M' (i.1 + 1) k c =
        lower (elim M i) (i.1 + 1) r k * upper (elim M i) (i.1 + 1) k c +
        ((if k = i then (M' r i - M r i / M i i) * (if c < i then 0 else M i c) else 0) +
        (if k = r then (if i < c then M' r c - (M r c - M r i / M i i * M i c) else 0) else 0)) := by
      intro k
      rw [hlow, hup]
      by_cases hki : k = i
      · subst hki
        rw [if_pos ⟨rfl, hr⟩, if_pos rfl, if_neg (fun h => lt_irrefl _ h.1), if_neg hr.ne, hui]
        ring
      · rw [if_neg (fun h => hki h.1), if_neg hki, add_zero, zero_add, mul_add]
        congr 1
        by_cases hkr : k = r
        · subst hkr
          rw [if_pos rfl]
          unfold lower
          rw [if_pos rfl, one_mul]
          simp only [hr, true_and]
        · rw [if_neg hkr]
          by_cases hik : i < k ∧ i < c
          · unfold lower
            rw [if_neg (Ne.symm hkr), if_neg (fun h => by have : i.1 < k.1 := hik.1; omega), zero_mul]
          · rw [if_neg hik, mul_zero]
    rw [Finset.sum_congr rfl fun k _ => hterm k, Finset.sum_add_distrib, Finset.sum_add_distrib]
    simp only [Finset.sum_ite_eq', Finset.mem_univ, if_true]
    rw [if_pos hr]
    congr 1
    rcases lt_trichotomy c i with hc | hc | hc
    · rw [if_pos hc, if_neg (lt_asymm hc), if_neg hc.ne, if_neg (lt_asymm hc)]
      ring
    · subst hc
      rw [if_neg (lt_irrefl _), if_neg (lt_irrefl _), if_pos rfl]
      field_simp
      ring
    · rw [if_neg (lt_asymm hc), if_pos hc, if_neg hc.ne', if_pos hc]
      ring
  · rw [if_neg hr, add_zero]
    refine Finset.sum_congr rfl fun k _ => ?_
    rw [hlow, hup, if_neg (fun h => hr h.2), add_zero]
    by_cases hik : i < k ∧ i < c
    · have : lower (elim M i) (i.1 + 1) r k = 0 := by
        unfold lower
        have h2 : i.1 < k.1 := hik.1
        rw [if_neg (fun h => hr (by rw [h]; exact hik.1)), if_neg (fun h => by omega)]
      rw [this, zero_mul, zero_mul]
    · rw [if_neg hik, add_zero]

/-- The state before step `i`. -/
structure Definite (B : Fin n → Fin n → ℚ) (t G E : ℚ) (i : Nat) (M : Fin n → Fin n → ℚ) : Prop where
  near : ∀ r c, |factorProduct M i r c - B r c| ≤ i * E
  pivot : ∀ k : Fin n, k.1 < i → t ≤ M k k
  top : ∀ k c : Fin n, k.1 < i → k ≤ c → |M k c| ≤ G
  mult : ∀ r k c : Fin n, k.1 < i → k < r → k ≤ c → |M r k * M k c| ≤ 9 / 4 * G

/-- What the matrix and the sizes have to satisfy. -/
structure Safe (B : Fin n → Fin n → ℚ) (u η R t a l G E : ℚ) : Prop where
  form : Coercive B l
  symm : ∀ r c, B r c = B c r
  diag : ∀ r, B r r ≤ a
  pos : 0 ≤ G
  low : t ≤ l - n * (n * E)
  skew : n * (2 * (n * E)) ≤ l - n * (n * E)
  grow : 3 / 2 * (a + n * E + n * (2 * (n * E)) / 2) ≤ G
  step : 6 * u * G + 3 * η * (1 + G) ≤ E
  range : G ≤ t * R
  range' : 8 * G + 1 ≤ R

theorem Safe.bounds {B M : Fin n → Fin n → ℚ} {u η R t a l G E : ℚ} (ht : 0 < t) (h : Safe B u η R t a l G E) (hE : 0 ≤ E)
    {A : Fin n → Fin n → ℚ} (hA : ∀ r c, |A r c - B r c| ≤ n * E) {i : Nat} (hf : Factors A 1 M i) (r c : Fin n)
    (hr : i ≤ r.1) (hc : i ≤ c.1) : t ≤ M r r ∧ M r r ≤ G ∧ |M r c| ≤ G := by
  have hn0 : (0 : ℚ) ≤ n := by positivity
  obtain ⟨h1, h2, h3⟩ := schur_bounds (a := a + n * E) (σ := 2 * (n * E)) (lt_of_lt_of_le ht h.low) (h.form.near hA) (fun r c => by
      have := abs_sub (A r c - B r c) (A c r - B c r)
      rw [h.symm c r, sub_sub_sub_cancel_right] at this
      linarith [hA r c, hA c r, h.symm c r, show |A c r - B r c| ≤ n * E by rw [h.symm r c]; exact hA c r]) h.skew (fun r => by
      have := (abs_le.mp (hA r r)).2
      linarith [h.diag r]) hf r c hr hc
  have h4 : 0 ≤ a + n * E + n * (2 * (n * E)) / 2 := by linarith [h.low]
  exact ⟨h.low.trans h1, by linarith [h.grow], h3.trans h.grow⟩

theorem definite_step {V : Type} [Sub V] [Mul V] [Div V] {F : Arith V} {val : V → ℚ → Prop} 
    {B Q : Fin n → Fin n → ℚ} {u η R t a l G E : ℚ} (hf : Works F val u η R) (ht : 0 < t)
    (h : Safe B u η R t a l G E) {i : Fin n} (hs : Definite B t G E i.1 Q)
    {N : Fin n → Fin n → V} (hN : ∀ r c, val (N r c) (Q r c)) :
    t ≤ Q i i ∧ ∃ Q' : Fin n → Fin n → ℚ, (∀ r c, val (elim N i r c) (Q' r c)) ∧
      Definite B t G E (i.1 + 1) Q' := by
  have hu := hf.u_nonneg
  have hη := hf.η_nonneg
  have hn1 : (i : ℚ) + 1 ≤ n := by exact_mod_cast i.2
  have hfac : Factors (factorProduct Q i.1) 1 Q i.1 := fun _ _ => rfl
  have hG0 := h.pos
  have hE : 0 ≤ E := le_trans (by positivity) h.step
  have hnear : ∀ r c, |factorProduct Q i.1 r c - B r c| ≤ n * E := fun r c =>
    (hs.near r c).trans (mul_le_mul_of_nonneg_right (by exact_mod_cast i.2.le) hE)
  have hb := fun r c hr hc => h.bounds ht hE hnear hfac r c hr hc
  obtain ⟨d1, d2, -⟩ := hb i i le_rfl le_rfl
  have hd0 : 0 < Q i i := ht.trans_le d1
  have hfac' := factors_elim hfac hd0.ne'
  have hb' := fun r c hr hc => (h.bounds ht hE hnear hfac' r c hr hc).2.2
  refine ⟨d1, ?_⟩
  have hrow : ∀ r, ∃ (l : ℚ) (q : Fin n → ℚ), i < r → val (N r i / N i i) l ∧
      |l * Q i i - Q r i| ≤ (u + η) * G ∧
      ∀ c, i < c → |l * Q i c| ≤ 9 / 4 * G ∧ val (N r c - N r i / N i i * N i c) (q c) ∧
        |q c - (Q r c - l * Q i c)| ≤ 6 * u * G + 3 * η := by
    intro r
    by_cases hr : i < r
    · obtain ⟨l, h1, h2, h3⟩ := multiplier hf (hN r i) (hN i i) ht d1 d2 (hb r i hr.le le_rfl).2.2 h.range
      have : ∀ c, ∃ q, i < c → |l * Q i c| ≤ 9 / 4 * G ∧ val (N r c - N r i / N i i * N i c) q ∧
          |q - (Q r c - l * Q i c)| ≤ 6 * u * G + 3 * η := by
        intro c
        by_cases hc : i < c
        · have h4 := hb' r c hr hc
          unfold elim at h4
          rw [if_pos hr, if_neg hc.ne', if_pos hc] at h4
          obtain ⟨h5, q, h6, h7⟩ := updated hf (hN r c) h1 (hN i c) (hb i c le_rfl hc.le).2.2 (hb r c hr.le hc.le).2.2 h4 h.range' h2
          exact ⟨q, fun _ => ⟨h5, h6, h7⟩⟩
        · exact ⟨0, fun h => absurd h hc⟩
      choose q hq using this
      exact ⟨l, q, fun _ => ⟨h1, h3, hq⟩⟩
    · exact ⟨0, fun _ => 0, fun h => absurd h hr⟩
  choose l q hlq using hrow
  set Q' : Fin n → Fin n → ℚ := fun r c => if i < r then (if c = i then l r else if i < c then q r c else Q r c) else Q r c with hQ'
  have qOld : ∀ r c, ¬ i < r → Q' r c = Q r c := fun r c hr => by simp only [hQ', hr, if_false]
  have qLeft : ∀ r c, c < i → Q' r c = Q r c := fun r c hc => by
    simp only [hQ', ne_of_lt hc, lt_asymm hc, if_false]
    split <;> rfl
  have qNew : ∀ r c, i < r → i < c → Q' r c = q r c := fun r c hr hc => by
    simp only [hQ', hr, hc, ne_of_gt hc, if_true, if_false]
  have qMult : ∀ r, i < r → Q' r i = l r := fun r hr => by simp only [hQ', hr, if_true]
  refine ⟨Q', ?_, ?_, ?_, ?_, ?_⟩
  · intro r c
    unfold elim
    by_cases hr : i < r
    · obtain ⟨h1, -, h2⟩ := hlq r hr
      simp only [hr, if_true]
      by_cases hc : c = i
      · subst hc
        rw [if_pos rfl, qMult r hr]
        exact h1
      · rw [if_neg hc]
        by_cases hc' : i < c
        · rw [if_pos hc', qNew r c hr hc']
          exact (h2 c hc').2.1
        · rw [if_neg hc', qLeft r c (lt_of_le_of_ne (not_lt.mp hc') hc)]
          exact hN r c
    · simp only [hr, if_false]
      rw [qOld r c hr]
      exact hN r c
  · intro r c
    rw [product_step hd0.ne' qOld qLeft, add_sub_right_comm, Nat.cast_add, Nat.cast_one, add_mul, one_mul]
    refine (abs_add_le _ _).trans (add_le_add (hs.near r c) (le_trans ?_ h.step))
    have k1 : 0 ≤ u * G := by positivity
    have k2 : 0 ≤ η * G := by positivity
    by_cases hr : i < r
    · obtain ⟨-, h1, h2⟩ := hlq r hr
      rw [if_pos hr]
      by_cases hc : c = i
      · rw [if_pos hc, qMult r hr]
        linarith
      · rw [if_neg hc]
        by_cases hc' : i < c
        · rw [if_pos hc', qMult r hr, qNew r c hr hc']
          linarith [(h2 c hc').2.2]
        · rw [if_neg hc', abs_zero]
          positivity
    · rw [if_neg hr, abs_zero]
      positivity
  · intro k hk
    rw [qOld k k (not_lt.mpr (Nat.lt_succ_iff.mp hk))]
    by_cases hki : k = i
    · rw [hki]; exact d1
    · exact hs.pivot k (lt_of_le_of_ne (Nat.lt_succ_iff.mp hk) fun h => hki (Fin.ext h))
  · intro k c hk hkc
    rw [qOld k c (not_lt.mpr (Nat.lt_succ_iff.mp hk))]
    by_cases hki : k = i
    · subst hki; exact (hb k c le_rfl hkc).2.2
    · exact hs.top k c (lt_of_le_of_ne (Nat.lt_succ_iff.mp hk) fun h => hki (Fin.ext h)) hkc
  · intro r k c hk hkr hkc
    rw [qOld k c (not_lt.mpr (Nat.lt_succ_iff.mp hk))]
    by_cases hki : k = i
    · subst hki
      rw [qMult r hkr]
      by_cases hc : c = k
      · subst hc
        have h1 := (hlq r hkr).2.1
        have h2 := (hb r c hkr.le le_rfl).2.2
        have h3 := abs_add_le (l r * Q c c - Q r c) (Q r c)
        rw [sub_add_cancel] at h3
        have h4 : (u + η) * G ≤ 1 * G := mul_le_mul_of_nonneg_right (by linarith [hf.u_small, hf.η_small]) hG0
        linarith
      · exact ((hlq r hkr).2.2 c (lt_of_le_of_ne hkc (Ne.symm hc))).1
    · have hlt : k < i := lt_of_le_of_ne (Nat.lt_succ_iff.mp hk) hki
      rw [qLeft r k hlt]
      exact hs.mult r k c hlt hkr hkc

/-- The factorisation of a symmetric positive definite matrix. -/
theorem factorise_definite {V : Type} [Zero V] [Sub V] [Mul V] [Div V] {F : Arith V} {val : V → ℚ → Prop} 
    {B : Fin n → Fin n → ℚ} {u η R t a l G E : ℚ} (hf : Works F val u η R) (ht : 0 < t)
    (h : Safe B u η R t a l G E) {N : Fin n → Fin n → V} (hN : ∀ r c, val (N r c) (B r c)) (s : Lu V) (hs : val s.tol t) :
    ∃ (N' : Fin n → Fin n → V) (M : Fin n → Fin n → ℚ),
      factorise F false s (mat N) = .ok ({ s with factorised := true, lu := mat N' }, true) ∧ (∀ r c, val (N' r c) (M r c)) ∧
      Definite B t G E n M := by
  obtain ⟨_, h2, N', M, rfl, hN', h3⟩ := loop_inv (n := n) (body := factoriseBody F false s.tol) (s := (mat N, s.piv, true))
    (fun i t' => ∃ (N' : Fin n → Fin n → V) (M : Fin n → Fin n → ℚ), t' = (mat N', s.piv, true) ∧ (∀ r c, val (N' r c) (M r c)) ∧
      Definite B t G E i M)
    ⟨N, B, rfl, hN, fun r c => by rw [show factorProduct B 0 r c = B r c from (factors_zero B r c).symm]; simp,
      fun k hk => absurd hk (Nat.not_lt_zero _), fun k _ hk => absurd hk (Nat.not_lt_zero _),
      fun _ k _ hk => absurd hk (Nat.not_lt_zero _)⟩ (by
      rintro i t' hi ⟨N', M, rfl, hN', h3⟩
      obtain ⟨hd, M', e1, h4⟩ := definite_step hf ht h (i := ⟨i, hi⟩) h3 hN'
      refine ⟨_, ?_, elim N' ⟨i, hi⟩, M', rfl, e1, h4⟩
      have hlt : F.lt (F.abs (N' ⟨i, hi⟩ ⟨i, hi⟩)) s.tol = false := by
        rw [hf.below (hN' _ _) hs]
        simpa using hd.trans (le_abs_self _)
      unfold factoriseBody
      simp only [if_true, Bool.false_eq_true, if_false, Out.pure_eq, Out.ok_bind, rd2_mat _ hi hi, hlt, mat_length]
      have := eliminate_ok N' ⟨i, hi⟩
      simp only at this
      rw [this]
      rfl)
  refine ⟨N', M, ?_, hN', h3⟩
  unfold factorise
  rw [mat_length]
  simp only [Bool.false_eq_true, if_false]
  rw [h2]
  rfl

theorem Coercive.diag {A : Fin n → Fin n → ℚ} {l : ℚ} (h : Coercive A l) (r : Fin n) : l ≤ A r r := by
  have h1 := h fun k => if k = r then 1 else 0
  simpa [form, sq] using h1

theorem definite_sizes (hn0 : 0 < n) {B : Fin n → Fin n → ℚ} {t a l : ℚ} (ht : 1 / 2 ^ 100 ≤ t) (hl0 : 0 < l) (hB : Coercive B l)
    (hdiag : ∀ r, B r r ≤ a) (hl : t + n ^ 2 * a / 2 ^ 46 ≤ l) : t ≤ l ∧ l ≤ a ∧ (n : ℚ) ^ 2 ≤ 2 ^ 46 ∧ (n : ℚ) ≤ 2 ^ 23 := by
  have ht0 : 0 < t := lt_of_lt_of_le (by positivity) ht
  have h1 : l ≤ a := (hB.diag ⟨0, hn0⟩).trans (hdiag _)
  have ha0 : 0 < a := hl0.trans_le h1
  have h2 : (n : ℚ) ^ 2 * a / 2 ^ 46 ≤ a := by linarith
  rw [div_le_iff₀ (by positivity), mul_comm a] at h2
  have h3 := le_of_mul_le_mul_right h2 ha0
  have h4 : 0 ≤ (n : ℚ) ^ 2 * a / 2 ^ 46 := by positivity
  refine ⟨by linarith, h1, h3, ?_⟩
  refine le_of_sq_le_sq (h3.trans (by norm_num)) (by norm_num)

theorem factorise_definite_works64 {V : Type} [Zero V] [Sub V] [Mul V] [Div V] {F : Arith V} {val : V → ℚ → Prop} 
    (hf : Works F val (1 / 2 ^ 53) (1 / 2 ^ 1075) (2 ^ 1023)) {B : Fin n → Fin n → ℚ} {t a l : ℚ} (ht : 1 / 2 ^ 100 ≤ t) (ha : a ≤ 2 ^ 900) (hl0 : 0 < l)
    (hB : Coercive B l) (hsym : ∀ r c, B r c = B c r) (hdiag : ∀ r, B r r ≤ a) (hl : t + n ^ 2 * a / 2 ^ 46 ≤ l)
    {N : Fin n → Fin n → V} (hN : ∀ r c, val (N r c) (B r c)) (s : Lu V) (hs : val s.tol t) :
    ∃ (N' : Fin n → Fin n → V) (M : Fin n → Fin n → ℚ),
      factorise F false s (mat N) = .ok ({ s with factorised := true, lu := mat N' }, true) ∧ (∀ r c, val (N' r c) (M r c)) ∧
      Definite B t (2 * a) (a / 2 ^ 49) n M := by
  have ht0 : 0 < t := lt_of_lt_of_le (by positivity) ht
  rcases Nat.eq_zero_or_pos n with rfl | hn0
  · obtain ⟨N', M, h1, h1', -⟩ := factorise_definite hf (t := t) (a := 0) (l := t) (G := 0) (E := 1) (B := B) ht0
      ⟨fun x => by simp [form, sq], fun r => r.elim0, fun r => r.elim0, le_rfl, by simp, by simp [ht0.le], by simp, by
        rw [mul_zero, zero_add, add_zero, mul_one]
        have : (1 : ℚ) / 2 ^ 1075 ≤ 1 / 2 ^ 60 := one_div_le_one_div_of_le (by positivity) (pow_le_pow_right₀ (by norm_num) (by norm_num))
        generalize (1 : ℚ) / 2 ^ 1075 = e at *
        norm_num at this
        linarith, by positivity, by rw [mul_zero, zero_add]; exact one_le_pow₀ (by norm_num)⟩ hN s hs
    exact ⟨N', M, h1, h1', fun r => r.elim0, fun r => r.elim0, fun r => r.elim0, fun r => r.elim0⟩
  obtain ⟨htl, hla, hn2, -⟩ := definite_sizes hn0 ht hl0 hB hdiag hl
  have hta : t ≤ a := htl.trans hla
  have ha0 : 0 < a := ht0.trans_le hta
  have hn1 : (n : ℚ) ≤ n ^ 2 := by
    have : (1 : ℚ) ≤ n := by exact_mod_cast hn0
    nlinarith
  have hna : (n : ℚ) * a ≤ n ^ 2 * a := mul_le_mul_of_nonneg_right hn1 ha0.le
  have hna0 : 0 ≤ (n : ℚ) ^ 2 * a := by positivity
  have hna1 : (n : ℚ) ^ 2 * a ≤ 2 ^ 46 * a := mul_le_mul_of_nonneg_right hn2 ha0.le
  have e1 : (n : ℚ) * (n * (a / 2 ^ 49)) = n ^ 2 * a / 2 ^ 49 := by ring
  have e2 : (n : ℚ) * (2 * (n * (a / 2 ^ 49))) = 2 * (n ^ 2 * a / 2 ^ 49) := by ring
  have e3 : (n : ℚ) * (a / 2 ^ 49) = n * a / 2 ^ 49 := by ring
  refine factorise_definite hf ht0 (R := 2 ^ 1023) (a := a) (l := l) (G := 2 * a) (E := a / 2 ^ 49)
    ⟨hB, hsym, hdiag, by positivity, ?_, ?_, ?_, ?_, ?_, ?_⟩ hN s hs
  · rw [e1]
    norm_num at hl ⊢
    linarith
  · rw [e1, e2]
    norm_num at hl ⊢
    linarith
  · rw [e2, e3]
    norm_num at hna1 ⊢
    linarith
  · have h1a : 1 ≤ 2 ^ 100 * a := by
      have := mul_le_mul_of_nonneg_left (ht.trans hta) (show (0 : ℚ) ≤ 2 ^ 100 by positivity)
      rwa [mul_one_div_cancel (by positivity)] at this
    have h2 : (1 : ℚ) / 2 ^ 1075 ≤ 1 / 2 ^ 160 := one_div_le_one_div_of_le (by positivity) (pow_le_pow_right₀ (by norm_num) (by norm_num))
    have h3 : 3 * (1 / 2 ^ 1075) * (1 + 2 * a) ≤ 3 * (1 / 2 ^ 160) * (1 + 2 * a) := by gcongr
    generalize (1 : ℚ) / 2 ^ 1075 = e at *
    norm_num at h1a h3 ⊢
    linarith
  · calc 2 * a ≤ 2 * 2 ^ 900 := by gcongr
      _ = 2 ^ 901 := by rw [pow_succ 2 900]; ring
      _ ≤ 1 / 2 ^ 100 * 2 ^ 1023 := by
        rw [show (1023 : ℕ) = 100 + 923 from rfl, pow_add, ← mul_assoc, one_div_mul_cancel (by positivity), one_mul]
        exact pow_le_pow_right₀ (by norm_num) (by norm_num)
      _ ≤ t * 2 ^ 1023 := mul_le_mul_of_nonneg_right ht (by positivity)
  · have h1 : (8 : ℚ) * (2 * 2 ^ 900) + 1 ≤ 2 ^ 905 := by
      rw [show (905 : ℕ) = 900 + 5 from rfl, pow_add]
      have : (1 : ℚ) ≤ 2 ^ 900 := one_le_pow₀ (by norm_num)
      generalize (2 : ℚ) ^ 900 = p at *
      norm_num
      linarith
    have h2 : (2 : ℚ) ^ 905 ≤ 2 ^ 1023 := pow_le_pow_right₀ (by norm_num) (by norm_num)
    generalize (2 : ℚ) ^ 905 = p at *
    generalize (2 : ℚ) ^ 1023 = p' at *
    generalize (2 : ℚ) ^ 900 = p'' at *
    linarith

theorem factorise_definite64 {B : Fin n → Fin n → ℚ} {t a l : ℚ} (ht : 1 / 2 ^ 100 ≤ t) (ha : a ≤ 2 ^ 900) (hl0 : 0 < l)
    (hB : Coercive B l) (hsym : ∀ r c, B r c = B c r) (hdiag : ∀ r, B r r ≤ a) (hl : t + n ^ 2 * a / 2 ^ 46 ≤ l)
    (s : Lu (Num binary64)) (hs : s.tol = fin t) :
    ∃ (M : Fin n → Fin n → ℚ),
      factorise (Num.arith binary64) false s (mat fun r c => (fin (B r c) : Num binary64)) =
        .ok ({ s with factorised := true, lu := mat (fun r c => (fin (M r c) : Num binary64)) }, true) ∧
      Definite B t (2 * a) (a / 2 ^ 49) n M := by
  obtain ⟨N', M, h1, h2, h3⟩ := factorise_definite_works64 (works_num fine_binary64) ht ha hl0 hB hsym hdiag hl
    (N := fun r c => (fin (B r c) : Num binary64)) (fun _ _ => rfl) s hs
  obtain rfl : N' = fun r c => fin (M r c) := funext fun r => funext fun c => h2 r c
  exact ⟨M, h1, h3⟩

/-! ### The sweeps -/

theorem sq_sum_le (w : Fin n → ℚ) : (∑ c, |w c|) ^ 2 ≤ n * sq w := by
  have h := sq_sum_le_card_mul_sum_sq (s := (Finset.univ : Finset (Fin n))) (f := fun c => |w c|)
  simp only [sq_abs, Finset.card_univ, Fintype.card_fin] at h
  exact h

/-- A vector that a coercive matrix takes to a small one is small. -/
theorem form_reach {P : Fin n → Fin n → ℚ} {μ D g : ℚ} (hμ : 0 < μ) (hP : Coercive P μ) (hD : 0 ≤ D) (hg : n * g ≤ μ / 4)
    {w : Fin n → ℚ} (h : ∀ r, w r ≠ 0 → |∑ c, P r c * w c| ≤ D + g * ∑ c, |w c|) : 3 * μ * ∑ c, |w c| ≤ 4 * n * D := by
  have hn : (0 : ℚ) ≤ n := by positivity
  set W := ∑ c, |w c| with hW
  have hW0 : 0 ≤ W := Finset.sum_nonneg fun _ _ => abs_nonneg _
  have h1 : form P w w ≤ W * (D + g * W) := by
    unfold form
    rw [hW, Finset.sum_mul]
    refine Finset.sum_le_sum fun r _ => ?_
    by_cases hr : w r = 0
    · rw [hr, zero_mul, abs_zero, zero_mul]
    · refine (le_abs_self _).trans ?_
      rw [abs_mul]
      exact mul_le_mul_of_nonneg_left (h r hr) (abs_nonneg _)
  have h2 := hP w
  have h3 := sq_sum_le w
  rw [← hW] at h3
  have h4 : μ * W ^ 2 ≤ n * (W * (D + g * W)) := by
    have := mul_le_mul_of_nonneg_left h3 hμ.le
    have := mul_le_mul_of_nonneg_left (h2.trans h1) hn
    nlinarith
  rcases hW0.eq_or_lt with h0 | h0
  · rw [← h0, mul_zero]
    positivity
  · have h5 : μ * W ≤ n * D + n * g * W := by
      refine le_of_mul_le_mul_right ?_ h0
      nlinarith
    have h6 := mul_le_mul_of_nonneg_right hg hW0
    nlinarith

/-- A small residual of a coercive matrix means a small error. -/
theorem form_error {B : Fin n → Fin n → ℚ} {l ρ : ℚ} (hl : 0 < l) (hB : Coercive B l) {d x y : Fin n → ℚ} (hy : Solves B y d)
    (hρ : ∀ r, |d r - ∑ c, B r c * x c| ≤ ρ) :
    ∑ r, (x r - y r) ^ 2 ≤ n * (ρ / l) ^ 2 := by
  have h1 := hB fun r => x r - y r
  have h2 : form B (fun r => x r - y r) (fun r => x r - y r) ≤ ∑ r, (ρ ^ 2 / (2 * l) + l / 2 * (x r - y r) ^ 2) := by
    unfold form
    refine Finset.sum_le_sum fun r _ => ?_
    have e : ∑ c, B r c * (x c - y c) = -(d r - ∑ c, B r c * x c) := by
      simp only [mul_sub, Finset.sum_sub_distrib]
      rw [show ∑ c, B r c * y c = d r from hy r]
      ring
    rw [e]
    refine (le_abs_self _).trans ?_
    rw [abs_mul, abs_neg]
    have h3 := mul_le_mul_of_nonneg_left (hρ r) (abs_nonneg (x r - y r))
    refine h3.trans ?_
    rw [← sq_abs (x r - y r)]
    have h4 := sq_nonneg (ρ - l * |x r - y r|)
    rw [div_add' _ _ _ (by positivity), le_div_iff₀ (by positivity)]
    nlinarith
  rw [Finset.sum_add_distrib, Finset.sum_const, Finset.card_univ, Fintype.card_fin, nsmul_eq_mul, ← Finset.mul_sum] at h2
  change l * ∑ r, (x r - y r) ^ 2 ≤ _ at h1
  set S := ∑ r, (x r - y r) ^ 2
  have h3 : l / 2 * S ≤ n * (ρ ^ 2 / (2 * l)) := by linarith
  have h4 : (n : ℚ) * (ρ / l) ^ 2 = n * (ρ ^ 2 / (2 * l)) * (2 / l) := by field_simp
  have h5 : S = l / 2 * S * (2 / l) := by field_simp
  rw [h4, h5]
  exact mul_le_mul_of_nonneg_right h3 (by positivity)

theorem form_error_sum {B : Fin n → Fin n → ℚ} {l ρ : ℚ} (hl : 0 < l) (hB : Coercive B l) (hρ0 : 0 ≤ ρ) {d x y : Fin n → ℚ}
    (hy : Solves B y d) (hρ : ∀ r, |d r - ∑ c, B r c * x c| ≤ ρ) : ∑ r, |x r - y r| ≤ n * ρ / l := by
  have h1 := form_error hl hB hy hρ
  have h2 := sq_sum_le fun r => x r - y r
  have h3 : (∑ r, |x r - y r|) ^ 2 ≤ (n * ρ / l) ^ 2 := by
    refine h2.trans ((mul_le_mul_of_nonneg_left h1 (by positivity)).trans (le_of_eq ?_))
    ring
  exact le_of_sq_le_sq h3 (by positivity)

/-- The vectors that the upper factor takes to given ones. -/
theorem prefix_solution {P M : Fin n → Fin n → ℚ} {μ : ℚ} (hμ : 0 < μ) (hP : Coercive P μ)
    (hf : ∀ r c, P r c = ∑ k, lowerPart M r k * upperPart M k c) (N : Nat) (g : Fin n → ℚ) :
    ∃ z : Fin n → ℚ, (∀ r : Fin n, r.1 < N → ∑ c, upperPart M r c * z c = g r) ∧ ∀ r : Fin n, N ≤ r.1 → z r = g r := by
  let T : (Fin n → ℚ) →ₗ[ℚ] (Fin n → ℚ) :=
    { toFun := fun v r => if r.1 < N then ∑ c, upperPart M r c * v c else v r
      map_add' := by
        intro v w
        funext r
        by_cases h1 : r.1 < N
        · simp [h1, mul_add, Finset.sum_add_distrib]
        · simp [h1]
      map_smul' := by
        intro a v
        funext r
        by_cases h1 : r.1 < N
        · simp only [h1, if_true, RingHom.id_apply, Pi.smul_apply, smul_eq_mul, Finset.mul_sum]
          exact Finset.sum_congr rfl fun c _ => by ring
        · simp [h1] }
  have hT : ∀ v r, T v r = if r.1 < N then ∑ c, upperPart M r c * v c else v r := fun v r => rfl
  have hinj : Function.Injective T := by
    rw [← LinearMap.ker_eq_bot, LinearMap.ker_eq_bot']
    intro v hv
    by_contra hne
    have h2 : ∀ k : Fin n, N ≤ k.1 → v k = 0 := fun k hk => by
      have := congrFun hv k
      rw [hT, if_neg (not_lt.mpr hk)] at this
      exact this
    have h1 : ∀ k : Fin n, ∑ c, upperPart M k c * v c = 0 := fun k => by
      by_cases hk : k.1 < N
      · have := congrFun hv k
        rw [hT, if_pos hk] at this
        exact this
      · refine Finset.sum_eq_zero fun c _ => ?_
        unfold upperPart
        by_cases hc : k ≤ c
        · rw [h2 c ((not_lt.mp hk).trans hc), mul_zero]
        · rw [if_neg hc, zero_mul]
    have h3 : form P v v = 0 := by
      refine Finset.sum_eq_zero fun r _ => ?_
      have : ∑ c, P r c * v c = ∑ k, lowerPart M r k * ∑ c, upperPart M k c * v c := by
        simp only [hf, Finset.sum_mul, Finset.mul_sum]
        rw [Finset.sum_comm]
        exact Finset.sum_congr rfl fun k _ => Finset.sum_congr rfl fun c _ => by ring
      rw [this]
      simp [h1]
    have h4 := hP v
    have h5 := mul_pos hμ (sq_pos hne)
    linarith
  obtain ⟨z, hz⟩ := (LinearMap.injective_iff_surjective.mp hinj) g
  refine ⟨z, fun r hr => ?_, fun r hr => ?_⟩
  · rw [← hz, hT, if_pos hr]
  · rw [← hz, hT, if_neg (not_lt.mpr hr)]

section sweeps

variable {u η R : ℚ} {M : Fin n → Fin n → ℚ} {d : Fin n → ℚ} {y x : Fin n → Num binary64}

/-- One row of the forward sweep. -/
theorem forward_row (h : Rounds binary64 u η) (h1 : u < 1) (hy : ∀ r, y r = less (fin (d r)) (fun c => fin (M r c) * y c) 0 r.1)
    {r : Fin n} (hr : y r = fin (Num.val (y r))) :
    |d r - ∑ k, lowerPart M r k * Num.val (y k)| ≤ relError u n * (∑ k, |lowerPart M r k| * |Num.val (y k)|) + absError u η n := by
  have hu := h.u_nonneg
  have hη := h.η_nonneg
  obtain ⟨g1, -, -⟩ := gain_spec hu h1
  obtain ⟨-, -, i3⟩ := less_error h h1 (fin (d r)) (fun c => (fin (M r c) : Num binary64)) (fun c => y c) 0 r.1
    (by have := r.2; omega) _ ((hy r).symm.trans hr)
  simp only [Num.val_fin] at i3
  rw [sum_lower, ← sub_sub]
  have q2 : ∑ k, |lowerPart M r k| * |Num.val (y k)| = Lu.psum (fun c => |M r c * Num.val (y c)|) 0 r.1 + |Num.val (y r)| := by
    have := sum_lower (fun r c => |M r c|) (fun c => |Num.val (y c)|) r
    refine Eq.trans ?_ (this.trans ?_)
    · refine Finset.sum_congr rfl fun c _ => ?_
      unfold lowerPart
      split
      · rfl
      · split <;> simp
    · simp only [abs_mul]
  rw [q2]
  have hT : 0 ≤ Lu.psum (fun c => |M r c * Num.val (y c)|) 0 r.1 + |Num.val (y r)| :=
    add_nonneg (psum_nonneg (fun c => abs_nonneg _) _ _) (abs_nonneg _)
  have hg : gain u ^ r.1 ≤ gain u ^ n := pow_le_pow_right₀ g1 r.2.le
  have t1 : (gain u ^ r.1 - 1) * (Lu.psum (fun c => |M r c * Num.val (y c)|) 0 r.1 + |Num.val (y r)|) ≤
      (gain u ^ n - 1) * (Lu.psum (fun c => |M r c * Num.val (y c)|) 0 r.1 + |Num.val (y r)|) :=
    mul_le_mul_of_nonneg_right (by linarith) hT
  have t2 : small u η r.1 ≤ small u η n := small_mono hu h1 hη r.2.le
  rw [relError_eq, absError_eq]
  linarith

/-- One row of the backward sweep. -/
theorem backward_row (h : Rounds binary64 u η) (h1 : u < 1) (hd0 : ∀ r, M r r ≠ 0)
    (hx : ∀ r, x r = less (y r) (fun c => fin (M r c) * x c) (r.1 + 1) (n - (r.1 + 1)) / fin (M r r))
    {r : Fin n} (hr : x r = fin (Num.val (x r))) :
    |Num.val (y r) - ∑ c, upperPart M r c * Num.val (x c)| ≤
      relError u n * (∑ c, |upperPart M r c| * |Num.val (x c)|) + absError u η n * (1 + |M r r|) := by
  have hu := h.u_nonneg
  have hη := h.η_nonneg
  obtain ⟨g1, -, -⟩ := gain_spec hu h1
  obtain ⟨q, f1, f2⟩ := div_fin (hd0 r) ((hx r).symm.trans hr)
  obtain ⟨i1, -, i3⟩ := less_error h h1 (y r) (fun c => (fin (M r c) : Num binary64)) (fun c => x c) (r.1 + 1) (n - (r.1 + 1))
    (by have := r.2; omega) q f1
  simp only [Num.val_fin] at i3
  have := quot_error h h1 (n - (r.1 + 1)) (hd0 r) f2 i3 (psum_nonneg (fun c => abs_nonneg _) _ _)
  rw [sum_upper, mul_comm (M r r)]
  have q2 : ∑ c, |upperPart M r c| * |Num.val (x c)| =
      Lu.psum (fun c => |M r c * Num.val (x c)|) (r.1 + 1) (n - (r.1 + 1)) + |Num.val (x r) * M r r| := by
    have := sum_upper (fun r c => |M r c|) (fun c => |Num.val (x c)|) r
    rw [abs_mul, mul_comm |Num.val (x r)|]
    refine Eq.trans ?_ (this.trans ?_)
    · refine Finset.sum_congr rfl fun c _ => ?_
      unfold upperPart
      split
      · rfl
      · simp
    · simp only [abs_mul]
  rw [q2]
  have hT : 0 ≤ Lu.psum (fun c => |M r c * Num.val (x c)|) (r.1 + 1) (n - (r.1 + 1)) + |Num.val (x r) * M r r| :=
    add_nonneg (psum_nonneg (fun c => abs_nonneg _) _ _) (abs_nonneg _)
  have hk : n - (r.1 + 1) + 1 ≤ n := by have := r.2; omega
  have hg : gain u ^ (n - (r.1 + 1) + 1) ≤ gain u ^ n := pow_le_pow_right₀ g1 hk
  have t1 : (gain u ^ (n - (r.1 + 1) + 1) - 1) * (Lu.psum (fun c => |M r c * Num.val (x c)|) (r.1 + 1) (n - (r.1 + 1)) + |Num.val (x r) * M r r|) ≤
      (gain u ^ n - 1) * (Lu.psum (fun c => |M r c * Num.val (x c)|) (r.1 + 1) (n - (r.1 + 1)) + |Num.val (x r) * M r r|) :=
    mul_le_mul_of_nonneg_right (by linarith) hT
  have t2 : small u η (n - (r.1 + 1)) ≤ small u η n := small_mono hu h1 hη (by omega)
  have t3 := mul_le_mul_of_nonneg_right (pow_le_small hu h1 hη hk) (abs_nonneg (M r r))
  rw [relError_eq, absError_eq]
  linarith

/-- What the factors of a symmetric positive definite matrix are used for. -/
structure GoodFactors (M P : Fin n → Fin n → ℚ) (t K μ : ℚ) : Prop where
  prod : ∀ r c, P r c = ∑ k, lowerPart M r k * upperPart M k c
  form : Coercive P μ
  pivot : ∀ k, t ≤ M k k
  mult : ∀ r k c, |lowerPart M r k * upperPart M k c| ≤ K

theorem GoodFactors.row {P : Fin n → Fin n → ℚ} {t K μ : ℚ} (h : GoodFactors M P t K μ) (w : Fin n → ℚ) (r : Fin n) :
    ∑ c, P r c * w c = ∑ k, lowerPart M r k * ∑ c, upperPart M k c * w c := by
  simp only [h.prod, Finset.sum_mul, Finset.mul_sum]
  rw [Finset.sum_comm]
  exact Finset.sum_congr rfl fun k _ => Finset.sum_congr rfl fun c _ => by ring

theorem GoodFactors.term {P : Fin n → Fin n → ℚ} {t K μ : ℚ} (h : GoodFactors M P t K μ) (w : Fin n → ℚ) (r k : Fin n) :
    |lowerPart M r k| * ∑ c, |upperPart M k c| * |w c| ≤ K * ∑ c, |w c| := by
  rw [Finset.mul_sum, Finset.mul_sum]
  refine Finset.sum_le_sum fun c _ => ?_
  rw [← mul_assoc, ← abs_mul]
  exact mul_le_mul_of_nonneg_right (h.mult r k c) (abs_nonneg _)

theorem GoodFactors.terms {P : Fin n → Fin n → ℚ} {t K μ : ℚ} (h : GoodFactors M P t K μ) (w : Fin n → ℚ) (r : Fin n) :
    ∑ k, |lowerPart M r k| * ∑ c, |upperPart M k c| * |w c| ≤ n * (K * ∑ c, |w c|) := by
  refine (Finset.sum_le_sum fun k _ => h.term w r k).trans (le_of_eq ?_)
  rw [Finset.sum_const, Finset.card_univ, Fintype.card_fin, nsmul_eq_mul]

theorem GoodFactors.weight {P : Fin n → Fin n → ℚ} {t K μ : ℚ} (ht : 0 < t) (h : GoodFactors M P t K μ) (r k : Fin n) :
    |lowerPart M r k| * (1 + |M k k|) ≤ K * (1 / t + 1) := by
  have h1 := h.mult r k k
  rw [upper_diag, abs_mul] at h1
  have h2 := (mul_le_mul_of_nonneg_left ((h.pivot k).trans (le_abs_self _)) (abs_nonneg (lowerPart M r k))).trans h1
  have h3 : |lowerPart M r k| ≤ K * (1 / t) := by
    rw [mul_one_div, le_div_iff₀ ht]
    exact h2
  rw [mul_add, mul_one, mul_add, mul_one]
  exact add_le_add h3 h1

theorem abs_row (f g : Fin n → ℚ) : |∑ c, f c * g c| ≤ ∑ c, |f c| * |g c| := by
  refine (Finset.abs_sum_le_sum_abs _ _).trans (le_of_eq ?_)
  simp only [abs_mul]

/-- The two sweeps, with the errors of their rows. -/
structure Sweeps {V : Type} [Sub V] [Mul V] [Div V] (val : V → ℚ → Prop) (vl : V → ℚ) (u η : ℚ) (M : Fin n → Fin n → ℚ)
    (N : Fin n → Fin n → V) (d : Fin n → ℚ) (b y x : Fin n → V) : Prop where
  value : ∀ {v q}, val v q → vl v = q
  factors : ∀ r c, val (N r c) (M r c)
  rhs : ∀ r, val (b r) (d r)
  forward : ∀ r, y r = less (b r) (fun c => N r c * y c) 0 r.1
  backward : ∀ r, x r = less (y r) (fun c => N r c * x c) (r.1 + 1) (n - (r.1 + 1)) / N r r
  first : ∀ r, val (y r) (vl (y r)) →
    |d r - ∑ k, lowerPart M r k * vl (y k)| ≤ relError u n * (∑ k, |lowerPart M r k| * |vl (y k)|) + absError u η n
  second : ∀ r, val (x r) (vl (x r)) →
    |vl (y r) - ∑ c, upperPart M r c * vl (x c)| ≤
      relError u n * (∑ c, |upperPart M r c| * |vl (x c)|) + absError u η n * (1 + |M r r|)

theorem sweeps_num (h : Rounds binary64 u η) (h1 : u < 1) (hd0 : ∀ r, M r r ≠ 0)
    (hy : ∀ r, y r = less (fin (d r)) (fun c => fin (M r c) * y c) 0 r.1)
    (hx : ∀ r, x r = less (y r) (fun c => fin (M r c) * x c) (r.1 + 1) (n - (r.1 + 1)) / fin (M r r)) :
    Sweeps (fun (v : Num binary64) q => v = fin q) Num.val u η M (fun r c => fin (M r c)) d (fun r => fin (d r)) y x :=
  ⟨fun h => by rw [h, Num.val_fin], fun _ _ => rfl, fun _ => rfl, hy, hx, fun _ hr => forward_row h h1 hy hr,
    fun _ hr => backward_row h h1 hd0 hx hr⟩

/-- The numbers of the forward sweep, as far as they are finite. -/
theorem forward_prefix {V : Type} [Sub V] [Mul V] [Div V] {val : V → ℚ → Prop} {vl : V → ℚ} {N : Fin n → Fin n → V} {b y x : Fin n → V}
    {P : Fin n → Fin n → ℚ} {t K μ D : ℚ} (hS : Sweeps val vl u η M N d b y x) (hμ : 0 < μ)
    (hM : GoodFactors M P t K μ) (hγ : n * (relError u n * (n * K)) ≤ μ / 4) (hε : 0 ≤ relError u n) (hα : 0 ≤ absError u η n)
    (hd : ∀ r, |d r| ≤ D) (hD : 0 ≤ D) {N' : Nat} (hN : ∀ r : Fin n, r.1 < N' → val (y r) (vl (y r))) :
    ∃ w : Fin n → ℚ, (∀ k : Fin n, k.1 < N' → ∑ c, upperPart M k c * w c = vl (y k)) ∧
      3 * μ * ∑ c, |w c| ≤ 4 * n * (D + absError u η n) := by
  obtain ⟨w, w1, w2⟩ := prefix_solution hμ hM.form hM.prod N' fun r => if r.1 < N' then vl (y r) else 0
  have w1 : ∀ k : Fin n, k.1 < N' → ∑ c, upperPart M k c * w c = vl (y k) := fun k hk => by rw [w1 k hk, if_pos hk]
  refine ⟨w, w1, form_reach hμ hM.form (by linarith) hγ fun r hr => ?_⟩
  have hrN : r.1 < N' := by
    by_contra hc
    exact hr (by rw [w2 r (not_lt.mp hc), if_neg hc])
  have hlow : ∀ k, ¬ k.1 < N' → lowerPart M r k = 0 := fun k hk => by
    unfold lowerPart
    rw [if_neg (fun h : k < r => hk (lt_trans (show k.1 < r.1 from h) hrN)), if_neg (fun h => hk (by rw [h]; exact hrN))]
  have e : ∑ c, P r c * w c = ∑ k, lowerPart M r k * vl (y k) := by
    rw [hM.row]
    refine Finset.sum_congr rfl fun k _ => ?_
    by_cases hk : k.1 < N'
    · rw [w1 k hk]
    · rw [hlow k hk, zero_mul, zero_mul]
  have h2 := hS.first r (hN r hrN)
  have h3 : ∑ k, |lowerPart M r k| * |vl (y k)| ≤ n * (K * ∑ c, |w c|) := by
    refine le_trans (Finset.sum_le_sum fun k _ => ?_) (hM.terms w r)
    by_cases hk : k.1 < N'
    · rw [← w1 k hk]
      exact mul_le_mul_of_nonneg_left (abs_row _ _) (abs_nonneg _)
    · rw [hlow k hk, abs_zero, zero_mul, zero_mul]
  have h4 := mul_le_mul_of_nonneg_left h3 hε
  have h5 := abs_sub (d r) (d r - ∑ k, lowerPart M r k * vl (y k))
  rw [sub_sub_cancel] at h5
  rw [e]
  have h6 := hd r
  have e2 : relError u n * (n * K) * ∑ c, |w c| = relError u n * (n * (K * ∑ c, |w c|)) := by ring
  rw [e2]
  linarith

/-- The forward sweep stays finite. -/
theorem forward_finite {V : Type} [Sub V] [Mul V] [Div V] {F : Arith V} {val : V → ℚ → Prop} {vl : V → ℚ} {N : Fin n → Fin n → V} {b y x : Fin n → V}
    {P : Fin n → Fin n → ℚ} {t K μ D W : ℚ} (hf : Works F val u η R) (hS : Sweeps val vl u η M N d b y x) (hμ : 0 < μ) (hK : 0 ≤ K)
    (hM : GoodFactors M P t K μ) (hγ : n * (relError u n * (n * K)) ≤ μ / 4) (hε : 0 ≤ relError u n) (hα : 0 ≤ absError u η n)
    (hd : ∀ r, |d r| ≤ D) (hD : 0 ≤ D) (hG : (1 + u) ^ (n + 2) ≤ 2)
    (hW : 4 * n * (D + absError u η n) ≤ 3 * μ * W) (hR : 2 * (D + n * (K * W) + 2 * n * η) ≤ R) (r : Fin n) :
    val (y r) (vl (y r)) := by
  have hη := hf.η_nonneg
  have hu1 : 1 ≤ 1 + u := by linarith [hf.u_nonneg]
  suffices ∀ N : Nat, ∀ r : Fin n, r.1 < N → val (y r) (vl (y r)) from this n r r.2
  intro N'
  induction N' with
  | zero => exact fun r hr => absurd hr (Nat.not_lt_zero _)
  | succ N' ih =>
    intro r hr
    by_cases hrN : r.1 < N'
    · exact ih r hrN
    obtain ⟨w, w1, w2⟩ := forward_prefix hS hμ hM hγ hε hα hd hD ih
    have hwW : ∑ c, |w c| ≤ W := by
      refine le_of_mul_le_mul_left (w2.trans hW) (by positivity)
    have hs : Lu.psum (fun c => |M r c| * |vl (y c)|) 0 r.1 ≤ n * (K * W) := by
      rw [psum_left]
      have h2 : ∀ k ∈ columnsLeft n r.1, |M r k| * |vl (y k)| ≤ K * W := fun k hk => by
        have hk : k < r := mem_columnsLeft.mp hk
        have h3 := hM.term w r k
        rw [show lowerPart M r k = M r k by unfold lowerPart; rw [if_pos hk]] at h3
        rw [← w1 k (by have : k.1 < r.1 := hk; omega)]
        exact ((mul_le_mul_of_nonneg_left (abs_row _ _) (abs_nonneg _)).trans h3).trans (mul_le_mul_of_nonneg_left hwW hK)
      refine (Finset.sum_le_sum h2).trans ?_
      rw [Finset.sum_const, nsmul_eq_mul]
      have hW0 : 0 ≤ W := (Finset.sum_nonneg fun _ _ => abs_nonneg _).trans hwW
      refine mul_le_mul_of_nonneg_right ?_ (by positivity)
      exact_mod_cast (Finset.card_le_univ _).trans (le_of_eq (Fintype.card_fin n))
    have kη : 2 * (r.1 : ℚ) * η ≤ 2 * n * η := by
      have : (r.1 : ℚ) ≤ n := by exact_mod_cast r.2.le
      gcongr
    obtain ⟨q, k1, -⟩ := less_works hf (v := d r) (m := M r) (y := fun c => vl (y c)) (T := D + n * (K * W) + 2 * n * η) (G := 2)
      (by linarith [hd r]) ((pow_le_pow_right₀ hu1 (by have := r.2; omega)).trans hG) hR (hS.rhs r)
      fun c _ hc => ⟨hS.factors r c, ih c (by omega)⟩
    rw [← hS.forward r] at k1
    rw [hS.value k1]
    exact k1

/-- The numbers of the backward sweep, as far as they are finite. -/
theorem backward_suffix {V : Type} [Sub V] [Mul V] [Div V] {val : V → ℚ → Prop} {vl : V → ℚ} {N : Fin n → Fin n → V} {b y x : Fin n → V}
    {P : Fin n → Fin n → ℚ} {t K μ D W : ℚ} (hS : Sweeps val vl u η M N d b y x) (ht : 0 < t) (hμ : 0 < μ)
    (hK : 0 ≤ K) (hM : GoodFactors M P t K μ) (hγ : n * (relError u n * (n * K)) ≤ μ / 4) (hε : 0 ≤ relError u n) (hα : 0 ≤ absError u η n)
    (hd : ∀ r, |d r| ≤ D) (hD : 0 ≤ D) (hyf : ∀ r, val (y r) (vl (y r)))
    (hW : 4 * n * (D + absError u η n) ≤ 3 * μ * W) {N' : Nat} (hN : ∀ r : Fin n, N' ≤ r.1 → val (x r) (vl (x r))) :
    ∃ z : Fin n → ℚ, (∀ k : Fin n, N' ≤ k.1 → z k = vl (x k)) ∧
      3 * μ * ∑ c, |z c| ≤
        4 * n * (D + absError u η n + relError u n * (n * (K * W)) + absError u η n * (n * (K * (1 / t + 1)))) := by
  obtain ⟨w, w1, w2⟩ := forward_prefix hS hμ hM hγ hε hα hd hD (N' := n) fun r _ => hyf r
  have w1 : ∀ k : Fin n, ∑ c, upperPart M k c * w c = vl (y k) := fun k => w1 k k.2
  have hwW : ∑ c, |w c| ≤ W := le_of_mul_le_mul_left (w2.trans hW) (by positivity)
  have hW0 : 0 ≤ W := (Finset.sum_nonneg fun _ _ => abs_nonneg _).trans hwW
  obtain ⟨z, z1, z2⟩ := prefix_solution hμ hM.form hM.prod N' fun r => if r.1 < N' then vl (y r) else vl (x r)
  have z1 : ∀ k : Fin n, k.1 < N' → ∑ c, upperPart M k c * z c = vl (y k) := fun k hk => by rw [z1 k hk, if_pos hk]
  have z2 : ∀ k : Fin n, N' ≤ k.1 → z k = vl (x k) := fun k hk => by rw [z2 k hk, if_neg (not_lt.mpr hk)]
  have hδ : ∀ k, |vl (y k) - ∑ c, upperPart M k c * z c| ≤
      relError u n * (∑ c, |upperPart M k c| * |z c|) + absError u η n * (1 + |M k k|) := by
    intro k
    by_cases hk : k.1 < N'
    · rw [z1 k hk, sub_self, abs_zero]
      have : 0 ≤ ∑ c, |upperPart M k c| * |z c| := Finset.sum_nonneg fun c _ => by positivity
      positivity
    · have hz : ∀ c, k ≤ c → z c = vl (x c) := fun c hc => z2 c ((not_lt.mp hk).trans hc)
      have e1 : ∑ c, upperPart M k c * z c = ∑ c, upperPart M k c * vl (x c) := Finset.sum_congr rfl fun c _ => by
        unfold upperPart
        by_cases hc : k ≤ c
        · rw [hz c hc]
        · rw [if_neg hc, zero_mul, zero_mul]
      have e2 : ∑ c, |upperPart M k c| * |z c| = ∑ c, |upperPart M k c| * |vl (x c)| := Finset.sum_congr rfl fun c _ => by
        unfold upperPart
        by_cases hc : k ≤ c
        · rw [hz c hc]
        · rw [if_neg hc, abs_zero, zero_mul, zero_mul]
      rw [e1, e2]
      exact hS.second k (hN k (not_lt.mp hk))
  refine ⟨z, z2, form_reach hμ hM.form (by positivity) hγ fun r _ => ?_⟩
  have e : ∑ c, P r c * z c = d r - (d r - ∑ k, lowerPart M r k * vl (y k)) -
      ∑ k, lowerPart M r k * (vl (y k) - ∑ c, upperPart M k c * z c) := by
    rw [hM.row]
    simp only [mul_sub, Finset.sum_sub_distrib]
    ring
  have h2 := hS.first r (hyf r)
  have h3 : ∑ k, |lowerPart M r k| * |vl (y k)| ≤ n * (K * W) := by
    refine le_trans (Finset.sum_le_sum fun k _ => ?_) ((hM.terms w r).trans ?_)
    · rw [← w1 k]
      exact mul_le_mul_of_nonneg_left (abs_row _ _) (abs_nonneg _)
    · exact mul_le_mul_of_nonneg_left (mul_le_mul_of_nonneg_left hwW hK) (by positivity)
  have h4 := mul_le_mul_of_nonneg_left h3 hε
  have h5 : |∑ k, lowerPart M r k * (vl (y k) - ∑ c, upperPart M k c * z c)| ≤
      relError u n * (n * (K * ∑ c, |z c|)) + absError u η n * (n * (K * (1 / t + 1))) := by
    refine (abs_row _ _).trans ?_
    calc _ ≤ ∑ k, (relError u n * (|lowerPart M r k| * ∑ c, |upperPart M k c| * |z c|) +
          absError u η n * (|lowerPart M r k| * (1 + |M k k|))) := Finset.sum_le_sum fun k _ => by
            have := mul_le_mul_of_nonneg_left (hδ k) (abs_nonneg (lowerPart M r k))
            rw [mul_add] at this
            linarith
      _ = relError u n * (∑ k, |lowerPart M r k| * ∑ c, |upperPart M k c| * |z c|) +
          absError u η n * ∑ k, |lowerPart M r k| * (1 + |M k k|) := by
            rw [Finset.sum_add_distrib, ← Finset.mul_sum, ← Finset.mul_sum]
      _ ≤ _ := by
            refine add_le_add (mul_le_mul_of_nonneg_left (hM.terms z r) hε) (mul_le_mul_of_nonneg_left ?_ hα)
            refine (Finset.sum_le_sum fun k _ => hM.weight ht r k).trans (le_of_eq ?_)
            rw [Finset.sum_const, Finset.card_univ, Fintype.card_fin, nsmul_eq_mul]
  rw [e]
  have h6 := hd r
  have h7 := abs_sub (d r - (d r - ∑ k, lowerPart M r k * vl (y k)))
    (∑ k, lowerPart M r k * (vl (y k) - ∑ c, upperPart M k c * z c))
  have h8 := abs_sub (d r) (d r - ∑ k, lowerPart M r k * vl (y k))
  have e2 : relError u n * (n * K) * ∑ c, |z c| = relError u n * (n * (K * ∑ c, |z c|)) := by ring
  rw [e2]
  linarith

/-- The backward sweep stays finite. -/
theorem backward_finite {V : Type} [Sub V] [Mul V] [Div V] {F : Arith V} {val : V → ℚ → Prop} {vl : V → ℚ} {N : Fin n → Fin n → V} {b y x : Fin n → V}
    {P : Fin n → Fin n → ℚ} {t K μ D W X : ℚ} (hf : Works F val u η R) (hS : Sweeps val vl u η M N d b y x) (ht : 0 < t) (hμ : 0 < μ)
    (hK : 0 ≤ K) (hM : GoodFactors M P t K μ) (hγ : n * (relError u n * (n * K)) ≤ μ / 4) (hε : 0 ≤ relError u n) (hα : 0 ≤ absError u η n)
    (hd : ∀ r, |d r| ≤ D) (hD : 0 ≤ D) (hyf : ∀ r, val (y r) (vl (y r)))
    (hW : 4 * n * (D + absError u η n) ≤ 3 * μ * W) (hG : (1 + u) ^ (n + 2) ≤ 2)
    (hX : 4 * n * (D + absError u η n + relError u n * (n * (K * W)) + absError u η n * (n * (K * (1 / t + 1)))) ≤ 3 * μ * X)
    (hR1 : 2 * (K * W + K * X + 2 * n * η) ≤ R) (hR : 2 * (K * W + K * X + 2 * n * η) ≤ t * R) :
    (∀ r, val (x r) (vl (x r))) ∧ ∑ r, |vl (x r)| ≤ X := by
  have hη := hf.η_nonneg
  have hu1 : 1 ≤ 1 + u := by linarith [hf.u_nonneg]
  have suffix := fun {N' : Nat} => backward_suffix (N' := N') hS ht hμ hK hM hγ hε hα hd hD hyf hW
  have sum_le : ∀ {z : Fin n → ℚ}, 3 * μ * ∑ c, |z c| ≤
      4 * n * (D + absError u η n + relError u n * (n * (K * W)) + absError u η n * (n * (K * (1 / t + 1)))) → ∑ c, |z c| ≤ X :=
    fun h => le_of_mul_le_mul_left (h.trans hX) (by positivity)
  have all : ∀ N : Nat, ∀ r : Fin n, n ≤ r.1 + N → val (x r) (vl (x r)) := by
    intro N'
    induction N' with
    | zero => exact fun r hr => absurd r.2 (by omega)
    | succ N' ih =>
      intro r hr
      by_cases hrN : n ≤ r.1 + N'
      · exact ih r hrN
      obtain ⟨w, w1, w2⟩ := forward_prefix hS hμ hM hγ hε hα hd hD (N' := n) fun r _ => hyf r
      have hwW : ∑ c, |w c| ≤ W := le_of_mul_le_mul_left (w2.trans hW) (by positivity)
      obtain ⟨z, z1, z2⟩ := suffix (N' := r.1 + 1) fun k hk => ih k (by omega)
      have hzX := sum_le z2
      have hUK : ∀ c, |upperPart M r c| ≤ K := fun c => by
        have := hM.mult r r c
        rwa [show lowerPart M r r = 1 by unfold lowerPart; rw [if_neg (lt_irrefl _), if_pos rfl], one_mul] at this
      have hv : |vl (y r)| ≤ K * W := by
        rw [← w1 r r.2]
        refine (abs_row _ _).trans ?_
        calc _ ≤ ∑ c, K * |w c| := Finset.sum_le_sum fun c _ => mul_le_mul_of_nonneg_right (hUK c) (abs_nonneg _)
          _ = K * ∑ c, |w c| := by rw [Finset.mul_sum]
          _ ≤ _ := mul_le_mul_of_nonneg_left hwW hK
      have hs : Lu.psum (fun c => |M r c| * |z c|) (r.1 + 1) (n - (r.1 + 1)) ≤ K * X := by
        rw [psum_right]
        calc _ ≤ ∑ c ∈ columns n (r.1 + 1), K * |z c| := Finset.sum_le_sum fun c hc => by
              have hc : r.1 + 1 ≤ c.1 := mem_columns.mp hc
              have := hUK c
              rw [show upperPart M r c = M r c by unfold upperPart; rw [if_pos (show r ≤ c from (by omega : r.1 ≤ c.1))]] at this
              exact mul_le_mul_of_nonneg_right this (abs_nonneg _)
          _ ≤ ∑ c, K * |z c| := Finset.sum_le_sum_of_subset_of_nonneg (Finset.subset_univ _) fun c _ _ => by positivity
          _ = K * ∑ c, |z c| := by rw [Finset.mul_sum]
          _ ≤ _ := mul_le_mul_of_nonneg_left hzX hK
      have kη : 2 * ((n - (r.1 + 1) : Nat) : ℚ) * η ≤ 2 * n * η := by
        have : ((n - (r.1 + 1) : Nat) : ℚ) ≤ n := by exact_mod_cast (by omega : n - (r.1 + 1) ≤ n)
        gcongr
      obtain ⟨q, k1, k2⟩ := less_works hf (v := vl (y r)) (m := M r) (y := z) (T := K * W + K * X + 2 * n * η) (G := 2) (by linarith)
        ((pow_le_pow_right₀ hu1 (by have := r.2; omega)).trans hG) hR1 (hyf r)
        fun c hc _ => ⟨hS.factors r c, by rw [z1 c hc]; exact ih c (by omega)⟩
      have hT0 : 0 ≤ K * W + K * X + 2 * n * η := by
        have := abs_nonneg (vl (y r))
        have h4 : 0 ≤ X := (Finset.sum_nonneg fun _ _ => abs_nonneg _).trans hzX
        have h5 : 0 ≤ K * X := by positivity
        have h6 : 0 ≤ 2 * (n : ℚ) * η := by positivity
        linarith
      have hq : |q| ≤ 2 * (K * W + K * X + 2 * n * η) :=
        k2.trans (mul_le_mul_of_nonneg_right ((pow_le_pow_right₀ hu1 (by have := r.2; omega)).trans hG) hT0)
      have hd0 : 0 < M r r := ht.trans_le (hM.pivot r)
      have hR0 : 0 ≤ R := le_trans (by positivity) hR1
      obtain ⟨z', hz', -⟩ := hf.quot k1 (hS.factors r r) hd0.ne' (by
        rw [abs_div, abs_of_pos hd0, div_le_iff₀ hd0]
        calc |q| ≤ t * R := hq.trans hR
          _ ≤ M r r * R := mul_le_mul_of_nonneg_right (hM.pivot r) hR0
          _ = _ := mul_comm _ _)
      rw [← hS.backward r] at hz'
      rw [hS.value hz']
      exact hz'
  refine ⟨fun r => all n r (by omega), ?_⟩
  obtain ⟨z, z1, z2⟩ := suffix (N' := 0) fun r _ => all n r (by omega)
  have := sum_le z2
  rwa [show z = fun r => vl (x r) from funext fun r => z1 r (Nat.zero_le _)] at this

end sweeps

/-! ### Constants -/

theorem Definite.good {B M : Fin n → Fin n → ℚ} {t a l E : ℚ} (ha : 0 ≤ a) (hB : Coercive B l) (h : Definite B t (2 * a) E n M) :
    GoodFactors M (factorProduct M n) t (9 / 2 * a) (l - n * (n * E)) := by
  refine ⟨fun r c => Finset.sum_congr rfl fun k _ => by rw [lower_eq, upper_eq], hB.near h.near, fun k => h.pivot k k.2, fun r k c => ?_⟩
  unfold lowerPart upperPart
  by_cases hc : k ≤ c
  · rw [if_pos hc]
    by_cases hk : k < r
    · rw [if_pos hk]
      linarith [h.mult r k c k.2 hk hc]
    · rw [if_neg hk]
      split
      · rw [one_mul]
        linarith [h.top k c k.2 hc]
      · rw [zero_mul, abs_zero]
        positivity
  · rw [if_neg hc, mul_zero, abs_zero]
    positivity

theorem definite_form {B : Fin n → Fin n → ℚ} {l : ℚ} (hB : ∀ x : Fin n → ℚ, l * ∑ r, x r ^ 2 ≤ ∑ r, ∑ c, x r * B r c * x c) :
    Coercive B l := by
  intro x
  refine (hB x).trans (le_of_eq ?_)
  unfold form
  refine Finset.sum_congr rfl fun r _ => ?_
  rw [Finset.mul_sum]
  exact Finset.sum_congr rfl fun c _ => by ring

theorem solved_sizes {m ε α μ l a D w q : ℚ} (hm : 1 ≤ m) (hl : 0 < l) (hla : l ≤ a) (h3 : m ^ 3 * a ≤ 2 ^ 46 * l) (hD : 0 ≤ D)
    (hε : 0 ≤ ε) (hε1 : ε ≤ m / 2 ^ 52) (hα : 0 ≤ α) (hq : 0 ≤ q) (hw : 4 / 3 * α + α * (m * (9 / 2 * a * q)) ≤ w)
    (hμ : μ = l - m * (m * (a / 2 ^ 49))) :
    7 / 8 * l ≤ μ ∧ m * (ε * (m * (9 / 2 * a))) ≤ μ / 4 ∧ ∃ W, 0 ≤ W ∧ W ≤ 3 * m * (D + w) / l ∧ 4 * m * (D + α) ≤ 3 * μ * W ∧
      4 * m * (D + α + ε * (m * (9 / 2 * a * W)) + α * (m * (9 / 2 * a * q))) ≤ 3 * μ * (3 * m * (D + w) / l) := by
  have ha : 0 < a := hl.trans_le hla
  have hm0 : 0 < m := by linarith
  have h1 : 7 / 8 * l ≤ μ := by
    have h2 : m ^ 2 * a ≤ m ^ 3 * a := mul_le_mul_of_nonneg_right (pow_le_pow_right₀ hm (by norm_num)) ha.le
    have e : m * (m * (a / 2 ^ 49)) = m ^ 2 * a / 2 ^ 49 := by ring
    rw [hμ, e]
    have : m ^ 2 * a / 2 ^ 49 ≤ l / 8 := by
      rw [div_le_iff₀ (by positivity)]
      norm_num at h3 ⊢
      linarith
    linarith
  have hμ0 : 0 < μ := by linarith
  have h2 : m * (ε * (m * (9 / 2 * a))) ≤ μ / 4 := by
    have h4 : m * (ε * (m * (9 / 2 * a))) ≤ m * (m / 2 ^ 52 * (m * (9 / 2 * a))) := by gcongr
    have e : m * (m / 2 ^ 52 * (m * (9 / 2 * a))) = 9 / 2 * (m ^ 3 * a) / 2 ^ 52 := by ring
    rw [e] at h4
    have : 9 / 2 * (m ^ 3 * a) / 2 ^ 52 ≤ 9 / 2 * l / 2 ^ 6 := by
      rw [div_le_div_iff₀ (by positivity) (by positivity)]
      norm_num at h3 ⊢
      linarith
    norm_num at this
    linarith
  have hαw : α ≤ w := by
    have : 0 ≤ α * (m * (9 / 2 * a * q)) := by positivity
    linarith
  have hw0 : 0 ≤ w := hα.trans hαw
  set W := 4 * m * (D + α) / (3 * μ) with hW
  have hW0 : 0 ≤ W := by positivity
  have hWμ : 3 * μ * W = 4 * m * (D + α) := by
    rw [hW]
    field_simp
  have hX : 3 * m * (D + w) / l * (7 / 8 * l) = 21 / 8 * (m * (D + w)) := by
    field_simp
    ring
  have hXμ : 21 / 8 * (m * (D + w)) ≤ μ * (3 * m * (D + w) / l) := by
    rw [← hX, mul_comm μ]
    exact mul_le_mul_of_nonneg_left h1 (by positivity)
  have hmD : m * (D + α) ≤ m * (D + w) := mul_le_mul_of_nonneg_left (by linarith) hm0.le
  refine ⟨h1, h2, W, hW0, ?_, hWμ.ge, ?_⟩
  · refine le_of_mul_le_mul_left ?_ (show 0 < 3 * μ by positivity)
    have : 0 ≤ m * (D + w) := by positivity
    linarith
  · have h5 : ε * (m * (9 / 2 * a * W)) * (3 * m) ≤ m * (D + α) := by
      have h6 := mul_le_mul_of_nonneg_right h2 hW0
      have e : ε * (m * (9 / 2 * a * W)) * (3 * m) = 3 * (m * (ε * (m * (9 / 2 * a))) * W) := by ring
      rw [e]
      linarith
    have h6 : m * (4 / 3 * α + α * (m * (9 / 2 * a * q))) ≤ m * w := mul_le_mul_of_nonneg_left hw hm0.le
    have h7 : 0 ≤ m * D := by positivity
    have h8 : 0 ≤ m * w := mul_nonneg hm0.le (by linarith)
    rw [mul_add] at h6 hXμ
    rw [mul_add] at h5
    linarith

/-! ### The property -/

/-- C213: without pivoting, a symmetric matrix of doubles whose form is well above the tolerance is accepted, the factors do
not grow beyond the diagonal, and their product is close to the matrix. -/
theorem c213_factors {t a l : ℚ} (ht : 1 / 2 ^ 100 ≤ t) (ha : a ≤ 2 ^ 900) (hl0 : 0 < l) (B : Fin n → Fin n → ℚ)
    (hB : ∀ x : Fin n → ℚ, l * ∑ r, x r ^ 2 ≤ ∑ r, ∑ c, x r * B r c * x c) (hsym : ∀ r c, B r c = B c r)
    (hdiag : ∀ r, B r r ≤ a) (hl : t + n ^ 2 * a / 2 ^ 46 ≤ l) (s : Lu (Num binary64)) (hs : s.tol = fin t) :
    ∃ (M : Fin n → Fin n → ℚ),
      factorise (Num.arith binary64) false s (mat fun r c => (fin (B r c) : Num binary64)) =
        .ok ({ s with factorised := true, lu := mat (fun r c => (fin (M r c) : Num binary64)) }, true) ∧
      (∀ k, t ≤ M k k) ∧ (∀ k c, k ≤ c → |M k c| ≤ 2 * a) ∧ (∀ r k c, k < r → k ≤ c → |M r k * M k c| ≤ 9 / 2 * a) ∧
      ∀ r c, |(∑ k, lowerPart M r k * upperPart M k c) - B r c| ≤ n * a / 2 ^ 49 := by
  obtain ⟨M, h1, h2⟩ := factorise_definite64 ht ha hl0 (definite_form hB) hsym hdiag hl s hs
  refine ⟨M, h1, fun k => h2.pivot k k.2, fun k c h => h2.top k c k.2 h, fun r k c hk hc => by linarith [h2.mult r k c k.2 hk hc],
    fun r c => ?_⟩
  have h3 := h2.near r c
  rw [show factorProduct M n r c = ∑ k, lowerPart M r k * upperPart M k c from
    Finset.sum_congr rfl fun k _ => by rw [lower_eq, upper_eq], ← mul_div_assoc] at h3
  exact h3

theorem definite_residual {t a l : ℚ} (ht : 1 / 2 ^ 100 ≤ t) (hl0 : 0 < l) {B M : Fin n → Fin n → ℚ} (hB' : Coercive B l)
    (hdiag : ∀ r, B r r ≤ a) (hl : t + n ^ 2 * a / 2 ^ 46 ≤ l) (h2 : Definite B t (2 * a) (a / 2 ^ 49) n M) {d x : Fin n → ℚ} {X : ℚ}
    (hk : ∀ r, |d r - ∑ c, B r c * x c| ≤ n / 2 ^ 50 * (∑ k, |lowerPart M r k| * ∑ c, |upperPart M k c| * |x c|) +
      6 * n / 2 ^ 1075 * (1 + 2 * (∑ k, |lowerPart M r k| * (1 + |M k k|)) + ∑ c, (1 + |M c c|) * |x c|))
    (hX : ∑ c, |x c| ≤ X) :
    (∀ r, |d r - ∑ c, B r c * x c| ≤ n ^ 2 * a * (X / 2 ^ 46 + 1 / 2 ^ 899)) ∧
      ∀ y, Solves B y d → ∑ r, |x r - y r| ≤ n ^ 3 * (a / l) * (X / 2 ^ 46 + 1 / 2 ^ 899) := by
  have ht0 : 0 < t := lt_of_lt_of_le (by positivity) ht
  have hX0 : 0 ≤ X := (Finset.sum_nonneg fun _ _ => abs_nonneg _).trans hX
  have hres : ∀ r, |d r - ∑ c, B r c * x c| ≤ n ^ 2 * a * (X / 2 ^ 46 + 1 / 2 ^ 899) := by
    intro r
    obtain ⟨htl, hla, -, hn23⟩ := definite_sizes r.pos ht hl0 hB' hdiag hl
    have ha0 : 0 < a := hl0.trans_le hla
    have hn1 : (1 : ℚ) ≤ n := by exact_mod_cast r.pos
    have hg := h2.good ha0.le hB'
    refine (hk r).trans ?_
    have k1 : ∑ k, |lowerPart M r k| * ∑ c, |upperPart M k c| * |x c| ≤ n * (9 / 2 * a * X) :=
      (hg.terms x r).trans (mul_le_mul_of_nonneg_left (mul_le_mul_of_nonneg_left hX (by positivity)) (by positivity))
    have k2 : ∑ k, |lowerPart M r k| * (1 + |M k k|) ≤ n * (9 / 2 * a * (1 / t + 1)) := by
      refine (Finset.sum_le_sum fun k _ => hg.weight ht0 r k).trans (le_of_eq ?_)
      rw [Finset.sum_const, Finset.card_univ, Fintype.card_fin, nsmul_eq_mul]
    have k3 : ∑ c, (1 + |M c c|) * |x c| ≤ (1 + 2 * a) * X := by
      calc _ ≤ ∑ c, (1 + 2 * a) * |x c| := Finset.sum_le_sum fun c _ =>
            mul_le_mul_of_nonneg_right (by linarith [h2.top c c c.2 le_rfl]) (abs_nonneg _)
        _ = (1 + 2 * a) * ∑ c, |x c| := by rw [Finset.mul_sum]
        _ ≤ _ := mul_le_mul_of_nonneg_left hX (by positivity)
    have main := heavy_constants (m := (n : ℚ)) (n := n) (t := t) (A := 9 / 5 * a) (X := X) hn1 (hn23.trans (by norm_num)) ht (by linarith) hX0
    have g1 : (0 : ℚ) ≤ n / 2 ^ 50 := by positivity
    have g2 : (0 : ℚ) ≤ 6 * n / 2 ^ 1075 := by positivity
    have k1' : ∑ k, |lowerPart M r k| * ∑ c, |upperPart M k c| * |x c| ≤ n * (5 * (9 / 5 * a) * X) := by
      refine k1.trans (mul_le_mul_of_nonneg_left ?_ (by positivity))
      have : 0 ≤ a * X := by positivity
      linarith
    have k2' : ∑ k, |lowerPart M r k| * (1 + |M k k|) ≤ n * (5 / 2 * (9 / 5 * a) * (1 / t + 1)) := by
      refine k2.trans (le_of_eq ?_)
      ring
    have k3' : ∑ c, (1 + |M c c|) * |x c| ≤ n * ((1 + 2 * (9 / 5 * a)) * X) := by
      have h4 : (1 + 2 * a) * X ≤ (1 + 2 * (9 / 5 * a)) * X := mul_le_mul_of_nonneg_right (by linarith) hX0
      have h5 : (1 + 2 * (9 / 5 * a)) * X ≤ n * ((1 + 2 * (9 / 5 * a)) * X) := le_mul_of_one_le_left (by positivity) hn1
      linarith
    refine (add_le_add (mul_le_mul_of_nonneg_left k1' g1) (mul_le_mul_of_nonneg_left (add_le_add (add_le_add le_rfl
      (mul_le_mul_of_nonneg_left k2' (by norm_num))) k3') g2)).trans (main.trans ?_)
    rw [show (n : ℚ) ^ 2 * (9 / 5 * a) * (6 * X / 2 ^ 50 + 1 / 2 ^ 900) = n ^ 2 * a * (9 / 5 * (6 * X / 2 ^ 50 + 1 / 2 ^ 900)) by ring]
    refine mul_le_mul_of_nonneg_left ?_ (by positivity)
    have e1 : (1 : ℚ) / 2 ^ 899 = 2 * (1 / 2 ^ 900) := by
      rw [pow_succ (2 : ℚ) 899]
      field_simp
    rw [e1]
    have e2 : (0 : ℚ) < 1 / 2 ^ 900 := by positivity
    generalize (1 : ℚ) / 2 ^ 900 = e at *
    norm_num
    linarith
  refine ⟨hres, fun y hy => ?_⟩
  rcases Nat.eq_zero_or_pos n with rfl | hn0
  · simp
  obtain ⟨htl, hla, -, hn23⟩ := definite_sizes hn0 ht hl0 hB' hdiag hl
  have ha0 : 0 < a := hl0.trans_le hla
  have h899 : (0 : ℚ) < 1 / 2 ^ 899 := by positivity
  generalize (1 : ℚ) / 2 ^ 899 = e at *
  refine (form_error_sum hl0 hB' (by positivity) hy hres).trans (le_of_eq ?_)
  ring

/-- C213: the residual of every finite solution is small against the matrix and the solution, and so is its distance from the
exact solution. -/
theorem c213_residual {t a l : ℚ} (ht : 1 / 2 ^ 100 ≤ t) (ha : a ≤ 2 ^ 900) (hl0 : 0 < l) (B : Fin n → Fin n → ℚ)
    (hB : ∀ x : Fin n → ℚ, l * ∑ r, x r ^ 2 ≤ ∑ r, ∑ c, x r * B r c * x c) (hsym : ∀ r c, B r c = B c r)
    (hdiag : ∀ r, B r r ≤ a) (hl : t + n ^ 2 * a / 2 ^ 46 ≤ l) (s : Lu (Num binary64)) (hs : s.tol = fin t) :
    ∃ s', factorise (Num.arith binary64) false s (mat fun r c => (fin (B r c) : Num binary64)) = .ok (s', true) ∧
    ∀ (d x : Fin n → ℚ) (x0 : List (Num binary64)) (X : ℚ),
      Lu.solve false s' x0 (some (vec fun r => (fin (d r) : Num binary64))) =
        .ok (vec (fun r => (fin (x r) : Num binary64)), true, 1) → ∑ c, |x c| ≤ X →
      (∀ r, |d r - ∑ c, B r c * x c| ≤ n ^ 2 * a * (X / 2 ^ 46 + 1 / 2 ^ 899)) ∧
      ∀ y, Solves B y d → ∑ r, |x r - y r| ≤ n ^ 3 * (a / l) * (X / 2 ^ 46 + 1 / 2 ^ 899) := by
  have ht0 : 0 < t := lt_of_lt_of_le (by positivity) ht
  have hB' := definite_form hB
  obtain ⟨M, h1, h2⟩ := factorise_definite64 ht ha hl0 hB' hsym hdiag hl s hs
  refine ⟨_, h1, fun d x x0 X hx hX => definite_residual ht hl0 hB' hdiag hl h2 (fun r => ?_) hX⟩
  obtain ⟨-, -, -, hn23⟩ := definite_sizes r.pos ht hl0 hB' hdiag hl
  have hn52 : n ≤ 2 ^ 52 := by
    have : n ≤ 2 ^ 23 := by exact_mod_cast hn23
    omega
  obtain ⟨p, hp, k⟩ := c103_partial false s _ ht0 hs hn52 B h1 M rfl
  have hp := hp rfl
  subst hp
  exact k d x x0 hx r

theorem definite_sweeps {V : Type} [Sub V] [Mul V] [Div V] {F : Arith V} {val : V → ℚ → Prop} {vl : V → ℚ} {N : Fin n → Fin n → V} {b y x : Fin n → V}
    (hf : Works F val (1 / 2 ^ 53) (1 / 2 ^ 1075) (2 ^ 1023)) {t a l D : ℚ} (ht : 1 / 2 ^ 100 ≤ t) (ha : a ≤ 2 ^ 300) (hD : D ≤ 2 ^ 300) (htl : t ≤ l) (hla : l ≤ a)
    (h3 : (n : ℚ) ^ 3 * a ≤ 2 ^ 46 * l) {B M : Fin n → Fin n → ℚ} (hB : Coercive B l) (hM : Definite B t (2 * a) (a / 2 ^ 49) n M)
    {d : Fin n → ℚ} (hd : ∀ r, |d r| ≤ D) (hn0 : 0 < n) (hS : Sweeps val vl (1 / 2 ^ 53) (1 / 2 ^ 1075) M N d b y x) :
    (∀ r, val (x r) (vl (x r))) ∧ ∑ r, |vl (x r)| ≤ 3 * n * (D + a / 2 ^ 900) / l := by
  have ht0 : 0 < t := lt_of_lt_of_le (by positivity) ht
  have hl0 : 0 < l := ht0.trans_le htl
  have ha0 : 0 < a := hl0.trans_le hla
  have hD0 : 0 ≤ D := (abs_nonneg _).trans (hd ⟨0, hn0⟩)
  have hn1 : (1 : ℚ) ≤ n := by exact_mod_cast hn0
  have hn3 : (n : ℚ) ^ 3 ≤ 2 ^ 46 := by
    refine le_of_mul_le_mul_right (h3.trans ?_) ha0
    exact mul_le_mul_of_nonneg_left hla (by positivity)
  have hn16 : (n : ℚ) ≤ 2 ^ 16 := by
    by_contra hc
    push Not at hc
    have : ((2 : ℚ) ^ 16) ^ 3 ≤ n ^ 3 := pow_le_pow_left₀ (by positivity) hc.le 3
    norm_num at this hn3
    linarith
  have hn16' : n ≤ 2 ^ 16 := by exact_mod_cast hn16
  have hnq : (n : ℚ) ≤ 65536 := hn16.trans (by norm_num)
  have hn52 : n ≤ 2 ^ 52 := by omega
  have hε1 := c102_relError hn52
  have hα1 := c102_absError hn52
  have hε0 : 0 ≤ relError (1 / 2 ^ 53) n := by
    unfold relError
    have : (1 : ℚ) ≤ (1 / (1 - 1 / 2 ^ 53)) ^ n := one_le_pow₀ (by norm_num)
    linarith
  have hα0 : 0 ≤ absError (1 / 2 ^ 53) (1 / 2 ^ 1075) n := by
    unfold absError
    have g1 : (0 : ℚ) ≤ (1 / (1 - 1 / 2 ^ 53)) ^ n := pow_nonneg (by norm_num) n
    have g2 : (0 : ℚ) ≤ 1 + 1 / (1 - 1 / 2 ^ 53) := by norm_num
    have g3 : (0 : ℚ) ≤ 1 / 2 ^ 1075 := by positivity
    exact mul_nonneg (mul_nonneg (by positivity) g1) (mul_nonneg g2 g3)
  have h1a : 1 ≤ 2 ^ 100 * a := by
    have := mul_le_mul_of_nonneg_left (ht.trans (htl.trans hla)) (show (0 : ℚ) ≤ 2 ^ 100 by positivity)
    rwa [mul_one_div_cancel (by positivity)] at this
  have h1t : 1 / t ≤ 2 ^ 100 := by
    rw [div_le_iff₀ ht0]
    have := mul_le_mul_of_nonneg_left ht (show (0 : ℚ) ≤ 2 ^ 100 by positivity)
    rwa [mul_one_div_cancel (by positivity)] at this
  have hw : 4 / 3 * absError (1 / 2 ^ 53) (1 / 2 ^ 1075) n + absError (1 / 2 ^ 53) (1 / 2 ^ 1075) n * (n * (9 / 2 * a * (1 / t + 1))) ≤
      a / 2 ^ 900 := by
    have b1 : 4 / 3 + n * (9 / 2 * a * (1 / t + 1)) ≤ 2 ^ 120 * a := by
      have b2 : 9 / 2 * a * (1 / t + 1) ≤ 9 / 2 * a * (2 ^ 100 + 1) := by gcongr
      have b3 : n * (9 / 2 * a * (1 / t + 1)) ≤ 2 ^ 16 * (9 / 2 * a * (2 ^ 100 + 1)) :=
        mul_le_mul hn16 b2 (by positivity) (by positivity)
      norm_num at b3 h1a ⊢
      linarith
    have b4 : 4 / 3 * absError (1 / 2 ^ 53) (1 / 2 ^ 1075) n + absError (1 / 2 ^ 53) (1 / 2 ^ 1075) n * (n * (9 / 2 * a * (1 / t + 1))) =
        absError (1 / 2 ^ 53) (1 / 2 ^ 1075) n * (4 / 3 + n * (9 / 2 * a * (1 / t + 1))) := by ring
    rw [b4]
    have b5 : 6 * (n : ℚ) / 2 ^ 1075 ≤ 2 ^ 19 * (1 / 2 ^ 1075) := by
      rw [div_eq_mul_one_div]
      refine mul_le_mul_of_nonneg_right ?_ (by positivity)
      linarith
    have b6 : (0 : ℚ) ≤ 2 ^ 19 * (1 / 2 ^ 1075) := by positivity
    refine (mul_le_mul (hα1.trans b5) b1 (by positivity) b6).trans ?_
    have b7 : (1 : ℚ) / 2 ^ 1075 = 1 / 2 ^ 900 * (1 / 2 ^ 175) := by
      rw [show (1075 : ℕ) = 900 + 175 from rfl, pow_add, one_div_mul_one_div]
    rw [b7, div_eq_mul_one_div a]
    have b8 : (0 : ℚ) < 1 / 2 ^ 900 := by positivity
    generalize (1 : ℚ) / 2 ^ 900 = e at *
    have b9 : 2 ^ 19 * (e * (1 / 2 ^ 175)) * (2 ^ 120 * a) = a * e * (2 ^ 19 * (1 / 2 ^ 175) * 2 ^ 120) := by ring
    rw [b9]
    exact mul_le_of_le_one_right (by positivity) (by norm_num)
  obtain ⟨c1, c2, W, c3, c4, c5, c6⟩ := solved_sizes (ε := relError (1 / 2 ^ 53) n) (α := absError (1 / 2 ^ 53) (1 / 2 ^ 1075) n) (μ := l - n * (n * (a / 2 ^ 49)))
    (D := D) (w := a / 2 ^ 900) (q := 1 / t + 1) hn1 hl0 hla h3 hD0 hε0 hε1 hα0 (by positivity) hw rfl
  have hμ0 : 0 < l - n * (n * (a / 2 ^ 49)) := by linarith
  have hgood := hM.good ha0.le hB
  -- sizes
  have hX419 : 3 * n * (D + a / 2 ^ 900) / l ≤ 2 ^ 419 := by
    have b1 : a / 2 ^ 900 ≤ a := div_le_self ha0.le (one_le_pow₀ (by norm_num))
    have b2 : D + a / 2 ^ 900 ≤ 2 ^ 301 := by
      rw [pow_succ (2 : ℚ) 300]
      generalize (2 : ℚ) ^ 300 = p at *
      generalize a / (2 : ℚ) ^ 900 = p' at *
      linarith
    have b0 : 0 ≤ D + a / 2 ^ 900 := by
      have : 0 ≤ a / (2 : ℚ) ^ 900 := div_nonneg ha0.le (by positivity)
      linarith
    have b3 : 1 / l ≤ 2 ^ 100 := by
      refine le_trans ?_ h1t
      exact one_div_le_one_div_of_le ht0 htl
    rw [div_eq_mul_one_div]
    have b4 : 3 * (n : ℚ) ≤ 2 ^ 18 := by linarith
    have b5 : 3 * n * (D + a / 2 ^ 900) ≤ 2 ^ 18 * 2 ^ 301 := mul_le_mul b4 b2 b0 (by positivity)
    calc 3 * n * (D + a / 2 ^ 900) * (1 / l) ≤ 2 ^ 18 * 2 ^ 301 * 2 ^ 100 := mul_le_mul b5 b3 (by positivity) (by positivity)
      _ = 2 ^ 419 := by rw [← pow_add, ← pow_add]
  have hK303 : 9 / 2 * a ≤ 2 ^ 303 := by
    rw [show (303 : ℕ) = 300 + 3 from rfl, pow_add]
    generalize (2 : ℚ) ^ 300 = p at *
    norm_num
    linarith
  have hX0 : 0 ≤ 3 * n * (D + a / 2 ^ 900) / l := c3.trans c4
  have hK0 : 0 ≤ 9 / 2 * a := by positivity
  have hKX : 9 / 2 * a * (3 * n * (D + a / 2 ^ 900) / l) ≤ 2 ^ 722 := by
    refine (mul_le_mul hK303 hX419 hX0 (by positivity)).trans (le_of_eq ?_)
    rw [← pow_add]
  have hKW : 9 / 2 * a * W ≤ 2 ^ 722 := (mul_le_mul_of_nonneg_left c4 hK0).trans hKX
  have hnη : 2 * (n : ℚ) * (1 / 2 ^ 1075) ≤ 1 := by
    have b1 : (1 : ℚ) / 2 ^ 1075 ≤ 1 / 2 ^ 60 := one_div_le_one_div_of_le (by positivity) (pow_le_pow_right₀ (by norm_num) (by norm_num))
    have b2 : 2 * (n : ℚ) * (1 / 2 ^ 1075) ≤ 2 * n * (1 / 2 ^ 60) := mul_le_mul_of_nonneg_left b1 (by positivity)
    generalize (1 : ℚ) / 2 ^ 1075 = e at *
    linarith
  have h738 : (2 : ℚ) ^ 738 = 2 ^ 16 * 2 ^ 722 := by rw [← pow_add]
  have hnKW : n * (9 / 2 * a * W) ≤ 2 ^ 738 := by
    rw [h738]
    exact mul_le_mul hn16 hKW (mul_nonneg hK0 c3) (by positivity)
  have h722 : (2 : ℚ) ^ 722 ≤ 2 ^ 738 := pow_le_pow_right₀ (by norm_num) (by norm_num)
  have h300 : (2 : ℚ) ^ 300 ≤ 2 ^ 738 := pow_le_pow_right₀ (by norm_num) (by norm_num)
  have h0 : (1 : ℚ) ≤ 2 ^ 738 := one_le_pow₀ (by norm_num)
  have h900 : 6 * (2 : ℚ) ^ 738 ≤ 2 ^ 900 := by
    rw [show (900 : ℕ) = 738 + 162 from rfl, pow_add, mul_comm]
    exact mul_le_mul_of_nonneg_left (by norm_num) (by positivity)
  have h1023 : (2 : ℚ) ^ 900 ≤ 2 ^ 1023 := pow_le_pow_right₀ (by norm_num) (by norm_num)
  have ht923 : (2 : ℚ) ^ 900 ≤ t * 2 ^ 1023 := by
    calc (2 : ℚ) ^ 900 ≤ 1 / 2 ^ 100 * 2 ^ 1023 := by
          rw [show (1023 : ℕ) = 100 + 923 from rfl, pow_add, ← mul_assoc, one_div_mul_cancel (by positivity), one_mul]
          exact pow_le_pow_right₀ (by norm_num) (by norm_num)
      _ ≤ t * 2 ^ 1023 := mul_le_mul_of_nonneg_right ht (by positivity)
  have r1 : 2 * (D + n * (9 / 2 * a * W) + 2 * n * (1 / 2 ^ 1075)) ≤ 2 ^ 900 := by
    generalize 2 * (n : ℚ) * (1 / 2 ^ 1075) = e at *
    generalize n * (9 / 2 * a * W) = e' at *
    clear hw hX419 hKX c4 c6 hX0 h1023 ht923 h738
    generalize (2 : ℚ) ^ 738 = p at *
    generalize (2 : ℚ) ^ 300 = p' at *
    generalize (2 : ℚ) ^ 900 = p'' at *
    linarith only [hD, h300, hnKW, hnη, h0, h900]
  have r2 : 2 * (9 / 2 * a * W + 9 / 2 * a * (3 * n * (D + a / 2 ^ 900) / l) + 2 * n * (1 / 2 ^ 1075)) ≤ 2 ^ 900 := by
    generalize 2 * (n : ℚ) * (1 / 2 ^ 1075) = e at *
    generalize 9 / 2 * a * W = e' at *
    generalize 9 / 2 * a * (3 * n * (D + a / 2 ^ 900) / l) = e'' at *
    clear hw hX419 c4 c6 hX0 h1023 ht923 h738
    generalize (2 : ℚ) ^ 738 = p at *
    generalize (2 : ℚ) ^ 722 = p' at *
    generalize (2 : ℚ) ^ 900 = p'' at *
    linarith only [hKW, hKX, hnη, h0, h722, h900]
  have hgain : (1 + (1 / 2 ^ 53 : ℚ)) ^ (n + 2) ≤ 2 := by
    refine (gain_bound (n := n) (by omega)).trans ?_
    have : ((n : ℚ) + 2) / 2 ^ 52 ≤ 1 := by
      rw [div_le_one (by positivity)]
      linarith
    linarith
  have hyf := forward_finite hf hS hμ0 hK0 hgood c2 hε0 hα0 hd hD0 hgain c5 (r1.trans h1023)
  exact backward_finite hf hS ht0 hμ0 hK0 hgood c2 hε0 hα0 hd hD0 hyf c5 hgain c6 (r2.trans h1023) (r2.trans ht923)

theorem definite_constants {t a l D : ℚ} (ht : 1 / 2 ^ 100 ≤ t) (ha : a ≤ 2 ^ 300) (htl : t ≤ l) (hla : l ≤ a) (hD0 : 0 ≤ D)
    (hn0 : 0 < n) :
    n ^ 3 * (a / l) * (3 * n * (D + a / 2 ^ 900) / l / 2 ^ 46 + 1 / 2 ^ 899) ≤ n ^ 4 * (a / l) * (D / l / 2 ^ 44 + 1 / 2 ^ 440) := by
  have hl0 : 0 < l := lt_of_lt_of_le (by positivity) (ht.trans htl)
  have ha0 : 0 < a := hl0.trans_le hla
  have hn1 : (1 : ℚ) ≤ n := by exact_mod_cast hn0
  have hal : a / l ≤ 2 ^ 400 := by
    have hl1 : 1 ≤ 2 ^ 100 * l := by
      have := mul_le_mul_of_nonneg_left (ht.trans htl) (show (0 : ℚ) ≤ 2 ^ 100 by positivity)
      rwa [mul_one_div_cancel (by positivity)] at this
    rw [div_le_iff₀ hl0, show (400 : ℕ) = 300 + 100 from rfl, pow_add, mul_assoc]
    calc a ≤ 2 ^ 300 * 1 := by rw [mul_one]; exact ha
      _ ≤ _ := mul_le_mul_of_nonneg_left hl1 (by positivity)
  have a1 : a / l * (1 / 2 ^ 900) ≤ 1 / 2 ^ 500 := by
    have e9 : (2 : ℚ) ^ 400 * (1 / 2 ^ 900) = 1 / 2 ^ 500 := by
      rw [show (900 : ℕ) = 400 + 500 from rfl, pow_add]
      field_simp
    rw [← e9]
    exact mul_le_mul_of_nonneg_right hal (by positivity)
  have a2 : (1 : ℚ) / 2 ^ 899 ≤ 1 / 2 ^ 500 :=
    one_div_le_one_div_of_le (by positivity) (pow_le_pow_right₀ (by norm_num) (by norm_num))
  have a4 : (1 : ℚ) / 2 ^ 500 ≤ 1 / 2 ^ 440 * (1 / 2 ^ 60) := by
    rw [one_div_mul_one_div, ← pow_add]
  have a5 : (0 : ℚ) < 1 / 2 ^ 440 := by positivity
  have a6 : (0 : ℚ) < 1 / 2 ^ 500 := by positivity
  have a7 : (0 : ℚ) ≤ 1 / 2 ^ 899 := by positivity
  rw [div_eq_mul_one_div a (2 ^ 900)]
  have e1 : 3 * n * (D + a * (1 / 2 ^ 900)) / l / 2 ^ 46 = n * (3 * (D / l) / 2 ^ 46 + 3 * (a / l * (1 / 2 ^ 900)) / 2 ^ 46) := by
    field_simp
  rw [e1]
  have hal0 : 0 ≤ a / l := by positivity
  have hDl : 0 ≤ D / l := by positivity
  clear e1 hal ha ht
  generalize a / l * (1 / 2 ^ 900) = v at *
  generalize (1 : ℚ) / 2 ^ 899 = v' at *
  generalize (1 : ℚ) / 2 ^ 500 = v'' at *
  generalize (1 : ℚ) / 2 ^ 440 = v₃ at *
  have b1 : v' ≤ n * v' := le_mul_of_one_le_left a7 hn1
  have b2 : 3 * (D / l) / 2 ^ 46 + 3 * v / 2 ^ 46 + v' ≤ D / l / 2 ^ 44 + v₃ := by
    norm_num at a4 ⊢
    linarith only [a1, a2, a4, a5, hDl]
  calc n ^ 3 * (a / l) * (n * (3 * (D / l) / 2 ^ 46 + 3 * v / 2 ^ 46) + v') ≤
      n ^ 3 * (a / l) * (n * (3 * (D / l) / 2 ^ 46 + 3 * v / 2 ^ 46) + n * v') := by gcongr
    _ = n ^ 4 * (a / l) * (3 * (D / l) / 2 ^ 46 + 3 * v / 2 ^ 46 + v') := by ring
    _ ≤ _ := mul_le_mul_of_nonneg_left b2 (by positivity)

/-- C213: a symmetric positive definite system whose numbers are at most 2^300 in size is accepted, and for every right hand
side the solution returned is finite, bounded, and close to the exact solution. -/
theorem c213_solved {t a l : ℚ} (ht : 1 / 2 ^ 100 ≤ t) (ha : a ≤ 2 ^ 300) (hl0 : 0 < l) (B : Fin n → Fin n → ℚ)
    (hB : ∀ x : Fin n → ℚ, l * ∑ r, x r ^ 2 ≤ ∑ r, ∑ c, x r * B r c * x c) (hsym : ∀ r c, B r c = B c r)
    (hdiag : ∀ r, B r r ≤ a) (hl : t + n ^ 3 * a / 2 ^ 46 ≤ l) (s : Lu (Num binary64)) (hs : s.tol = fin t) :
    ∃ s', factorise (Num.arith binary64) false s (mat fun r c => (fin (B r c) : Num binary64)) = .ok (s', true) ∧
    ∀ (d : Fin n → ℚ) (D : ℚ) (x0 : List (Num binary64)), (∀ r, |d r| ≤ D) → D ≤ 2 ^ 300 →
      ∃ x : Fin n → ℚ, Lu.solve false s' x0 (some (vec fun r => (fin (d r) : Num binary64))) =
        .ok (vec (fun r => (fin (x r) : Num binary64)), true, 1) ∧
      ∑ r, |x r| ≤ 3 * n * (D + a / 2 ^ 900) / l ∧
      ∀ y, Solves B y d → ∑ r, |x r - y r| ≤ n ^ 4 * (a / l) * (D / l / 2 ^ 44 + 1 / 2 ^ 440) := by
  have ht0 : 0 < t := lt_of_lt_of_le (by positivity) ht
  have hB' := definite_form hB
  have ha9 : a ≤ 2 ^ 900 := ha.trans (pow_le_pow_right₀ (by norm_num) (by norm_num))
  have hl2 : t + n ^ 2 * a / 2 ^ 46 ≤ l := by
    rcases Nat.eq_zero_or_pos n with rfl | hn0
    · simpa using hl
    · have h1 : l ≤ a := (hB'.diag ⟨0, hn0⟩).trans (hdiag _)
      have h2 : (n : ℚ) ^ 2 * a ≤ n ^ 3 * a :=
        mul_le_mul_of_nonneg_right (pow_le_pow_right₀ (by exact_mod_cast hn0) (by norm_num)) (hl0.le.trans h1)
      have h3 : (n : ℚ) ^ 2 * a / 2 ^ 46 ≤ n ^ 3 * a / 2 ^ 46 := div_le_div_of_nonneg_right h2 (by positivity)
      linarith only [h3, hl]
  obtain ⟨M, h1, h2⟩ := factorise_definite64 ht ha9 hl0 hB' hsym hdiag hl2 s hs
  obtain ⟨s', k1, k2⟩ := c213_residual ht ha9 hl0 B hB hsym hdiag hl2 s hs
  rw [h1] at k1
  obtain rfl := (Prod.mk.inj (Out.ok.inj k1)).1
  refine ⟨_, h1, fun d D x0 hdD hD => ?_⟩
  obtain ⟨y, w, l1, l2, l3⟩ := solve_any false
    { s with factorised := true, lu := mat (fun r c => (fin (M r c) : Num binary64)) }
    (fun r c => (fin (M r c) : Num binary64)) rfl rfl 1 (by simp) (fun _ => rfl) (fun r => (fin (d r) : Num binary64)) x0
  rcases Nat.eq_zero_or_pos n with rfl | hn0
  · refine ⟨fun r => r.elim0, ?_, by simp, fun y _ => by simp⟩
    rw [l1, show w = fun r => (fin ((fun r : Fin 0 => (r.elim0 : ℚ)) r) : Num binary64) from funext fun r => r.elim0]
  obtain ⟨htl, hla, -, -⟩ := definite_sizes hn0 ht hl0 hB' hdiag hl2
  have h3 : (n : ℚ) ^ 3 * a ≤ 2 ^ 46 * l := by
    have : (n : ℚ) ^ 3 * a / 2 ^ 46 ≤ l := by linarith only [ht0, hl]
    rw [div_le_iff₀ (by positivity)] at this
    linarith only [this]
  obtain ⟨f1, f2⟩ := definite_sweeps (works_num fine_binary64) ht ha hD htl hla h3 hB' h2 hdD hn0
    (sweeps_num rounds_binary64 (by norm_num) (fun r => (ht0.trans_le (h2.pivot r r.2)).ne') l2 l3)
  have e : w = fun r => fin (Num.val (w r)) := funext f1
  rw [e] at l1
  refine ⟨fun r => Num.val (w r), l1, f2, fun z hz => ?_⟩
  exact ((k2 d _ x0 _ l1 f2).2 z hz).trans (definite_constants ht ha htl hla ((abs_nonneg _).trans (hdD ⟨0, hn0⟩)) hn0)

end

/-- A symmetric positive definite matrix whose rows are not dominated by the diagonal. -/
def stiff (r c : Fin 3) : ℚ := ([[4, 3, 1], [3, 4, 3], [1, 3, 5]].getD r.1 []).getD c.1 0

/-- The hypotheses of C213 hold for this matrix. -/
example : (∀ x : Fin 3 → ℚ, 1 / 4 * ∑ r, x r ^ 2 ≤ ∑ r, ∑ c, x r * stiff r c * x c) ∧ (∀ r c, stiff r c = stiff c r) ∧
    (∀ r, stiff r r ≤ 5) ∧ (64 * (1 / 2 ^ 52) : ℚ) + ((3 : ℕ) : ℚ) ^ 3 * 5 / 2 ^ 46 ≤ 1 / 4 ∧
    (1 / 2 ^ 100 : ℚ) ≤ 64 * (1 / 2 ^ 52) ∧ (∃ r, stiff r r ≤ ∑ c ∈ Finset.univ.erase r, |stiff r c|) ∧
    freshDouble.tol = fin (64 * (1 / 2 ^ 52)) := by
  refine ⟨fun x => ?_, by decide +kernel, by decide +kernel, by norm_num, by norm_num, ⟨1, by decide +kernel⟩, rfl⟩
  simp only [Fin.sum_univ_three]
  have e : ∀ r c, stiff r c = ([[4, 3, 1], [3, 4, 3], [1, 3, 5]].getD r.1 []).getD c.1 0 := fun _ _ => rfl
  simp only [e, Fin.val_zero, Fin.val_one, Fin.val_two, List.getD_cons_zero, List.getD_cons_succ]
  nlinarith [sq_nonneg (15 * x 0 + 12 * x 1 + 4 * x 2), sq_nonneg (27 * x 1 + 44 * x 2), sq_nonneg (x 2)]

end Disa.Props
