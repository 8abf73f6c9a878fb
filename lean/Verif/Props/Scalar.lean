import Verif.Scalar.Model
import Mathlib.Tactic.Ring
import Mathlib.Tactic.Linarith
import Mathlib.Tactic.NormNum
import Mathlib.Tactic.FieldSimp

/-!
# Properties C42, C79 and C80: tolerant comparisons
-/

namespace Disa.Props

open Disa

/-! ### C42 -/

/-- What the comparisons need of the arithmetic on a pair of scalars: exactly one of `<`, `==`, `>` holds, a scalar equals
itself, and differences and sums of absolute values do not depend on the order. -/
structure Comparable {S : Type} (A : Arith S) (a b : S) : Prop where
  refl : A.eq a a = true
  symm : A.eq a b = A.eq b a
  lt_not : A.lt a b = true → A.eq a b = false ∧ A.lt b a = false
  gt_not : A.lt b a = true → A.eq a b = false
  total : A.lt a b = true ∨ A.eq a b = true ∨ A.lt b a = true
  diff : A.abs (A.sub a b) = A.abs (A.sub b a)
  norm : A.add (A.abs a) (A.abs b) = A.add (A.abs b) (A.abs a)

/-- What C42 says about a pair of scalars. -/
def Coherent {S : Type} (A : Arith S) (a b rel tol : S) : Prop :=
  A.nearlyEqual a a rel tol = .ok true ∧
  ∃ l e g, A.nearlyLess a b rel tol = .ok l ∧ A.nearlyEqual a b rel tol = .ok e ∧ A.nearlyGreater a b rel tol = .ok g ∧
    ((l = true ∧ e = false ∧ g = false) ∨ (l = false ∧ e = true ∧ g = false) ∨ (l = false ∧ e = false ∧ g = true)) ∧
    A.nearlyEqual b a rel tol = .ok e ∧ A.nearlyLess b a rel tol = .ok g ∧ A.nearlyGreater b a rel tol = .ok l ∧
    A.nearlyGreaterEqual a b rel tol = .ok (g || e) ∧ A.nearlyLessEqual a b rel tol = .ok (l || e) ∧
    (l = true → A.lt a b = true) ∧ (g = true → A.lt b a = true)

theorem nearlyEqual_ok {S : Type} (A : Arith S) {a b rel tol : S} (h1 : A.le A.eps rel = true) (h2 : A.le rel A.one = true) :
    A.nearlyEqual a b rel tol = .ok (A.eq a b ||
      A.lt (A.abs (A.sub a b)) (A.stdMax tol (A.mul rel (A.stdMin (A.add (A.abs a) (A.abs b)) A.max)))) := by
  unfold Arith.nearlyEqual
  rw [h1, h2]
  cases h : A.eq a b <;> rfl

/-- C42, in any arithmetic, for comparable scalars. -/
theorem c42_coherent {S : Type} (A : Arith S) {a b rel tol : S} (h1 : A.le A.eps rel = true) (h2 : A.le rel A.one = true)
    (h : Comparable A a b) : Coherent A a b rel tol := by
  have hba : A.nearlyEqual b a rel tol = A.nearlyEqual a b rel tol := by
    rw [nearlyEqual_ok A h1 h2, nearlyEqual_ok A h1 h2, ← h.symm, ← h.diff, ← h.norm]
  refine ⟨by rw [nearlyEqual_ok A h1 h2, h.refl, Bool.true_or], ?_⟩
  obtain ⟨e, he⟩ : ∃ e, A.nearlyEqual a b rel tol = .ok e := ⟨_, nearlyEqual_ok A h1 h2⟩
  have heq : A.eq a b = true → e = true := by
    intro hab
    rw [nearlyEqual_ok A h1 h2, hab, Bool.true_or] at he
    exact (Out.ok.inj he).symm
  have e1 : A.nearlyGreaterEqual a b rel tol = .ok (A.lt b a || e) := by
    unfold Arith.nearlyGreaterEqual
    cases A.lt b a <;> simp [he]
  have e2 : A.nearlyLessEqual a b rel tol = .ok (A.lt a b || e) := by
    unfold Arith.nearlyLessEqual
    cases A.lt a b <;> simp [he]
  have e3 : A.nearlyGreaterEqual b a rel tol = .ok (A.lt a b || e) := by
    unfold Arith.nearlyGreaterEqual
    cases A.lt a b <;> simp [he, hba]
  have e4 : A.nearlyLessEqual b a rel tol = .ok (A.lt b a || e) := by
    unfold Arith.nearlyLessEqual
    cases A.lt b a <;> simp [he, hba]
  refine ⟨!(A.lt b a || e), e, !(A.lt a b || e), by unfold Arith.nearlyLess; rw [e1]; rfl, he,
    by unfold Arith.nearlyGreater; rw [e2]; rfl, ?_, by rw [hba, he], by unfold Arith.nearlyLess; rw [e3]; rfl,
    by unfold Arith.nearlyGreater; rw [e4]; rfl, ?_, ?_, ?_, ?_⟩
  all_goals
    have t1 := h.total
    have t2 := h.lt_not
    have t3 := h.gt_not
    try rw [e1]
    try rw [e2]
    revert t1 t2 t3 heq
    cases A.lt a b <;> cases A.lt b a <;> cases A.eq a b <;> cases e <;> simp

/-- C42: numbers of an ordered field are comparable. -/
theorem comparable_exact {K : Type} [Field K] [LinearOrder K] [IsStrictOrderedRing K] (eps max a b : K) :
    Comparable (Arith.exact K eps max) a b where
  refl := by simp [Arith.exact]
  symm := by simp [Arith.exact, eq_comm]
  lt_not := by
    simp only [Arith.exact, decide_eq_true_eq, decide_eq_false_iff_not]
    exact fun h => ⟨h.ne, h.not_gt⟩
  gt_not := by
    simp only [Arith.exact, decide_eq_true_eq, decide_eq_false_iff_not]
    exact fun h => h.ne'
  total := by simpa [Arith.exact] using lt_trichotomy a b
  diff := by simp [Arith.exact, abs_sub_comm]
  norm := by simp [Arith.exact, add_comm]

/-- C42: floating point numbers are comparable unless one is NaN, if rounding commutes with the sign. -/
theorem comparable_float (rnd : ℚ → Fl) (hodd : ∀ q, rnd (-q) = (rnd q).neg) {a b : Fl} (ha : a ≠ .nan) (hb : b ≠ .nan) :
    Comparable (Fl.arith rnd) a b := by
  have habs : ∀ x : Fl, x.neg.abs = x.abs := by
    intro x
    cases x <;> simp [Fl.neg, Fl.abs]
  cases a with
  | nan => exact absurd rfl ha
  | inf s =>
    cases b with
    | nan => exact absurd rfl hb
    | inf t => constructor <;> cases s <;> cases t <;> simp [Fl.arith, Fl.eq, Fl.lt, Fl.abs, Fl.sub, Fl.add, Fl.neg]
    | fin q => constructor <;> cases s <;> simp [Fl.arith, Fl.eq, Fl.lt, Fl.abs, Fl.sub, Fl.add, Fl.neg]
  | fin p =>
    cases b with
    | nan => exact absurd rfl hb
    | inf t => constructor <;> cases t <;> simp [Fl.arith, Fl.eq, Fl.lt, Fl.abs, Fl.sub, Fl.add, Fl.neg]
    | fin q =>
      constructor
      · simp [Fl.arith, Fl.eq]
      · simp [Fl.arith, Fl.eq, eq_comm]
      · simp only [Fl.arith, Fl.eq, Fl.lt, decide_eq_true_eq, decide_eq_false_iff_not]
        exact fun h => ⟨h.ne, h.not_gt⟩
      · simp only [Fl.arith, Fl.eq, Fl.lt, decide_eq_true_eq, decide_eq_false_iff_not]
        exact fun h => h.ne'
      · simpa [Fl.arith, Fl.eq, Fl.lt] using lt_trichotomy p q
      · simp only [Fl.arith, Fl.sub, Fl.neg, Fl.add]
        rw [show q + -p = -(p + -q) by ring, hodd, habs]
      · simp only [Fl.arith, Fl.abs, Fl.add, add_comm]

/-- C42 over an ordered field, for all valid relative tolerances and all absolute ones. -/
theorem c42_exact {K : Type} [Field K] [LinearOrder K] [IsStrictOrderedRing K] (eps max a b rel tol : K) (h1 : eps ≤ rel)
    (h2 : rel ≤ 1) : Coherent (Arith.exact K eps max) a b rel tol :=
  c42_coherent _ (by simpa [Arith.exact] using h1) (by simpa [Arith.exact] using h2) (comparable_exact eps max a b)

/-- C42 over floating point numbers that are not NaN, for all roundings that commute with the sign. -/
theorem c42_float (rnd : ℚ → Fl) (hodd : ∀ q, rnd (-q) = (rnd q).neg) {a b : Fl} (ha : a ≠ .nan) (hb : b ≠ .nan) {rel : Fl}
    (tol : Fl) (h1 : Fl.le (.fin (1 / 2 ^ 52)) rel = true) (h2 : Fl.le rel (.fin 1) = true) :
    Coherent (Fl.arith rnd) a b rel tol :=
  c42_coherent _ h1 h2 (comparable_float rnd hodd ha hb)

/-- C42: invalid relative tolerances exit, unless a plain comparison decides. -/
theorem c42_tolerance {S : Type} (A : Arith S) (a b rel tol : S) (h : A.le A.eps rel = false ∨ A.le rel A.one = false) :
    A.nearlyEqual a b rel tol = .exit 1 ∧
    A.nearlyGreaterEqual a b rel tol = (if A.lt b a = true then .ok true else .exit 1) ∧
    A.nearlyLessEqual a b rel tol = (if A.lt a b = true then .ok true else .exit 1) ∧
    A.nearlyLess a b rel tol = (if A.lt b a = true then .ok false else .exit 1) ∧
    A.nearlyGreater a b rel tol = (if A.lt a b = true then .ok false else .exit 1) := by
  have he : A.nearlyEqual a b rel tol = .exit 1 := by
    unfold Arith.nearlyEqual
    rcases h with h | h
    · rw [h]; rfl
    · cases h' : A.le A.eps rel
      · rfl
      · rw [h]; rfl
  refine ⟨he, ?_, ?_, ?_, ?_⟩
  · unfold Arith.nearlyGreaterEqual
    rw [he]; rfl
  · unfold Arith.nearlyLessEqual
    rw [he]; rfl
  · unfold Arith.nearlyLess Arith.nearlyGreaterEqual
    rw [he]
    cases A.lt b a <;> rfl
  · unfold Arith.nearlyGreater Arith.nearlyLessEqual
    rw [he]
    cases A.lt a b <;> rfl

example : Coherent (Arith.exact ℚ (1 / 1000) 1000000) 1 (101 / 100) (1 / 10) (1 / 100) ∧
    (Arith.exact ℚ (1 / 1000) 1000000).nearlyEqual 1 (101 / 100) (1 / 10) (1 / 100) = .ok true ∧
    (Arith.exact ℚ (1 / 1000) 1000000).nearlyLess 1 2 (1 / 10) (1 / 100) = .ok true :=
  ⟨c42_exact _ _ _ _ _ _ (by norm_num) (by norm_num), by decide +kernel, by decide +kernel⟩
example : Coherent (Fl.arith .fin) (.inf true) (.fin 3) (.fin (1 / 4)) .nan :=
  c42_float _ (fun q => rfl) (by simp) (by simp) _ (by decide +kernel) (by decide +kernel)

/-! ### C79: the documented cases -/

section Cases
variable {K : Type} [Field K] [LinearOrder K] [IsStrictOrderedRing K]

omit [IsStrictOrderedRing K] in
/-- C79: what `is_nearly_equal` compares. -/
theorem c79_exact (eps mx a b rel tol : K) (h1 : eps ≤ rel) (h2 : rel ≤ 1) :
    (Arith.exact K eps mx).nearlyEqual a b rel tol =
      .ok (decide (a = b ∨ |a - b| < max tol (rel * min (|a| + |b|) mx))) := by
  rw [nearlyEqual_ok _ (by simpa [Arith.exact] using h1) (by simpa [Arith.exact] using h2), Out.ok.injEq]
  have hmax : ∀ x y : K, (Arith.exact K eps mx).stdMax x y = max x y := by
    intro x y
    simp only [Arith.stdMax, Arith.exact, decide_eq_true_eq]
    split
    · rename_i h; exact (max_eq_right h.le).symm
    · rename_i h; exact (max_eq_left (not_lt.mp h)).symm
  have hmin : ∀ x y : K, (Arith.exact K eps mx).stdMin x y = min x y := by
    intro x y
    simp only [Arith.stdMin, Arith.exact, decide_eq_true_eq]
    split
    · rename_i h; exact (min_eq_right h.le).symm
    · rename_i h; exact (min_eq_left (not_lt.mp h)).symm
  rw [hmax, hmin]
  simp [Arith.exact, Bool.decide_or]

/-- C79 says that the result is given by the first of the documented cases that applies. -/
def DocumentedCases (eps mx a b rel tol : K) : Prop :=
  ∃ e, (Arith.exact K eps mx).nearlyEqual a b rel tol = .ok e ∧
    (mx < |a| + |b| → (e = true ↔ |a - b| / mx < rel)) ∧
    (tol < |a| + |b| → |a| + |b| < mx → (e = true ↔ |a - b| / (|a| + |b|) < rel)) ∧
    (|a| + |b| < tol → (e = true ↔ |a - b| < tol))

end Cases

/-- The claim of C79, for the default tolerances. -/
def C79 : Prop := ∀ a b : ℚ,
  DocumentedCases (1 / 2 ^ 52) ((2 - 1 / 2 ^ 52) * 2 ^ 1023) a b (65536 / 2 ^ 52) (64 / 2 ^ 52)

theorem c79_violated : ¬ C79 := by
  intro h
  obtain ⟨e, he, _, h2, _⟩ := h (64 / 2 ^ 52) (96 / 2 ^ 52)
  have hv : (Arith.exact ℚ (1 / 2 ^ 52) ((2 - 1 / 2 ^ 52) * 2 ^ 1023)).nearlyEqual (64 / 2 ^ 52) (96 / 2 ^ 52) (65536 / 2 ^ 52)
      (64 / 2 ^ 52) = .ok true := by decide +kernel
  rw [hv, Out.ok.injEq] at he
  subst he
  have := (h2 (by decide +kernel) (by decide +kernel)).mp rfl
  revert this
  decide +kernel

/-- C79 where it is true: the absolute tolerance is not above the relative one times the norm, or the norm is below it. -/
theorem c79_cases_partial {K : Type} [Field K] [LinearOrder K] [IsStrictOrderedRing K] (eps mx a b rel tol : K) (h0 : 0 < eps)
    (h1 : eps ≤ rel) (h2 : rel ≤ 1) (h3 : 0 < mx) (htol : tol ≤ mx)
    (h : |a| + |b| < tol ∨ tol ≤ rel * min (|a| + |b|) mx) : DocumentedCases eps mx a b rel tol := by
  have hrel : 0 < rel := lt_of_lt_of_le h0 h1
  have hn : 0 ≤ |a| + |b| := add_nonneg (abs_nonneg a) (abs_nonneg b)
  refine ⟨_, c79_exact eps mx a b rel tol h1 h2, ?_, ?_, ?_⟩
  · intro hbig
    rw [min_eq_right hbig.le] at h ⊢
    have h4 : tol ≤ rel * mx := by
      rcases h with h | h
      · exact absurd (lt_trans hbig h) (not_lt.mpr htol)
      · exact h
    rw [max_eq_right h4, div_lt_iff₀ h3, decide_eq_true_eq]
    constructor
    · rintro (rfl | h)
      · simpa using mul_pos hrel h3
      · exact h
    · exact Or.inr
  · intro hlo hhi
    rw [min_eq_left hhi.le] at h ⊢
    have h4 : tol ≤ rel * (|a| + |b|) := by
      rcases h with h | h
      · exact absurd h (not_lt.mpr hlo.le)
      · exact h
    rw [max_eq_right h4, decide_eq_true_eq]
    rcases hn.lt_or_eq with hpos | hzero
    · rw [div_lt_iff₀ hpos]
      constructor
      · rintro (rfl | h)
        · simpa using mul_pos hrel hpos
        · exact h
      · exact Or.inr
    · have ha : a = 0 := by
        have := abs_nonneg a
        have := abs_nonneg b
        exact abs_eq_zero.mp (le_antisymm (by linarith) (abs_nonneg a))
      have hb : b = 0 := by
        have := abs_nonneg a
        have := abs_nonneg b
        exact abs_eq_zero.mp (le_antisymm (by linarith) (abs_nonneg b))
      subst ha hb
      simpa using hrel
  · intro hlo
    have h5 : rel * min (|a| + |b|) mx ≤ tol := by
      have h6 : min (|a| + |b|) mx ≤ |a| + |b| := min_le_left _ _
      have h7 : 0 ≤ min (|a| + |b|) mx := le_min hn h3.le
      have h8 : rel * min (|a| + |b|) mx ≤ 1 * min (|a| + |b|) mx := mul_le_mul_of_nonneg_right h2 h7
      linarith
    rw [max_eq_left h5, decide_eq_true_eq]
    constructor
    · rintro (rfl | h)
      · simpa using lt_of_le_of_lt hn hlo
      · exact h
    · exact Or.inr

/-- C79: enlarging a tolerance keeps scalars equal. -/
theorem c79_monotone {K : Type} [Field K] [LinearOrder K] [IsStrictOrderedRing K] (eps mx a b rel tol rel' tol' : K)
    (h3 : 0 < mx) (h1 : eps ≤ rel) (h2 : rel' ≤ 1) (hr : rel ≤ rel') (ht : tol ≤ tol')
    (h : (Arith.exact K eps mx).nearlyEqual a b rel tol = .ok true) :
    (Arith.exact K eps mx).nearlyEqual a b rel' tol' = .ok true := by
  rw [c79_exact _ _ _ _ _ _ h1 (le_trans hr h2), Out.ok.injEq, decide_eq_true_eq] at h
  rw [c79_exact _ _ _ _ _ _ (le_trans h1 hr) h2, Out.ok.injEq, decide_eq_true_eq]
  refine h.imp_right fun h => lt_of_lt_of_le h (max_le_max ht (mul_le_mul_of_nonneg_right hr ?_))
  exact le_min (add_nonneg (abs_nonneg a) (abs_nonneg b)) h3.le

example : DocumentedCases (1 / 1000 : ℚ) 1000 5 6 (1 / 10) (1 / 100) :=
  c79_cases_partial _ _ _ _ _ _ (by norm_num) (by norm_num) (by norm_num) (by norm_num) (by norm_num) (.inr (by decide +kernel))

/-! ### C80: less and greater exclude each other -/

/-- The claim of C80. -/
def C80 : Prop := ∀ (rnd : ℚ → Fl) (a b : Fl), (∀ q, rnd (-q) = (rnd q).neg) →
  ¬ ((Fl.arith rnd).nearlyLess a b (.fin (65536 / 2 ^ 52)) (.fin (64 / 2 ^ 52)) = .ok true ∧
    (Fl.arith rnd).nearlyGreater a b (.fin (65536 / 2 ^ 52)) (.fin (64 / 2 ^ 52)) = .ok true)

/-- C80: both hold exactly if one of the scalars is NaN. -/
theorem c80_exact (rnd : ℚ → Fl) (hodd : ∀ q, rnd (-q) = (rnd q).neg) (a b rel tol : Fl)
    (h1 : Fl.le (.fin (1 / 2 ^ 52)) rel = true) (h2 : Fl.le rel (.fin 1) = true) :
    ((Fl.arith rnd).nearlyLess a b rel tol = .ok true ∧ (Fl.arith rnd).nearlyGreater a b rel tol = .ok true) ↔
      a = .nan ∨ b = .nan := by
  constructor
  · rintro ⟨hl, hg⟩
    by_contra hno
    push Not at hno
    obtain ⟨_, l, e, g, e1, _, e3, hx, _⟩ := c42_float rnd hodd hno.1 hno.2 tol h1 h2
    rw [hl, Out.ok.injEq] at e1
    rw [hg, Out.ok.injEq] at e3
    subst e1 e3
    simp at hx
  · intro h
    have hlt : Fl.lt a b = false ∧ Fl.lt b a = false ∧ Fl.eq a b = false ∧ (Fl.sub rnd a b).abs = .nan := by
      rcases h with rfl | rfl
      · cases b <;> simp [Fl.lt, Fl.eq, Fl.sub, Fl.add, Fl.abs]
      · cases a <;> simp [Fl.lt, Fl.eq, Fl.sub, Fl.add, Fl.abs, Fl.neg]
    have he : (Fl.arith rnd).nearlyEqual a b rel tol = .ok false := by
      rw [nearlyEqual_ok _ h1 h2]
      simp only [Fl.arith]
      rw [hlt.2.2.1, hlt.2.2.2]
      rfl
    constructor
    · unfold Arith.nearlyLess Arith.nearlyGreaterEqual
      rw [he, show (Fl.arith rnd).lt b a = false from hlt.2.1]
      rfl
    · unfold Arith.nearlyGreater Arith.nearlyLessEqual
      rw [he, show (Fl.arith rnd).lt a b = false from hlt.1]
      rfl

theorem c80_violated : ¬ C80 := by
  intro h
  exact h .fin .nan (.fin 0) (fun _ => rfl)
    ((c80_exact .fin (fun _ => rfl) _ _ _ _ (by decide +kernel) (by decide +kernel)).mpr (.inl rfl))

end Disa.Props
