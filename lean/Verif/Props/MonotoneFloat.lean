import Verif.Props.Monotone
import Verif.Props.SweepFloat
import Verif.Scalar.Mono

/-!
# Property C170: iterates of doubles that rise or fall
-/

namespace Disa.Props

open Disa Spec Dense Num Sparse Iterative

/-- A number between numbers that do not overflow does not overflow. -/
theorem binary64_squeeze {p q r p' r' : ℚ} (h1 : p ≤ q) (h2 : q ≤ r) (hp : binary64 p = .fin p') (hr : binary64 r = .fin r') :
    ∃ q', binary64 q = .fin q' := by
  rw [binary64_near] at hp hr
  split at hp
  · split at hr
    · rename_i k1 k2
      refine ⟨near64 q, ?_⟩
      rw [binary64_near, if_pos]
      have e1 := near64_mono h1
      have e2 := near64_mono h2
      generalize (2 : ℚ) ^ (1024 : ℕ) = B at *
      rw [abs_lt] at k1 k2 ⊢
      constructor <;> linarith
    · cases hr
  · cases hp

theorem mul64 {a b c : ℚ} (h : binary64 (a * b) = .fin c) : (fin a : Num binary64) * fin b = fin c := h

theorem sub64 {a b c : ℚ} (h : binary64 (a - b) = .fin c) : (fin a : Num binary64) - fin b = fin c := Num.sub_eq.trans h

theorem div64 {a b c : ℚ} (hb : b ≠ 0) (h : binary64 (a / b) = .fin c) : (fin a : Num binary64) / fin b = fin c := by
  show Fl.div binary64 (.fin a) (.fin b) = Fl.fin c
  simp only [Fl.div, hb, if_false]
  exact h

/-- The doubles are multiples of the smallest one. -/
theorem multiple_of_least {q r : ℚ} (h : binary64 q = .fin r) : ∃ k : ℤ, r = k * (1 / 2 ^ 1074) := by
  rw [binary64_near] at h
  split at h
  · rw [Fl.fin.injEq] at h
    subst h
    have hl : -1074 ≤ lastDigit q := le_max_right _ _
    obtain ⟨d, hd⟩ := Int.eq_ofNat_of_zero_le (show 0 ≤ lastDigit q + 1074 by omega)
    refine ⟨nearestEven (q / 2 ^ lastDigit q) * 2 ^ d, ?_⟩
    unfold near64
    rw [show ((nearestEven (q / 2 ^ lastDigit q) * 2 ^ d : ℤ) : ℚ) * (1 / 2 ^ 1074) =
      nearestEven (q / 2 ^ lastDigit q) * (2 ^ d * (1 / 2 ^ 1074)) by push_cast; ring]
    congr 1
    rw [show lastDigit q = (d : ℤ) - 1074 by omega, zpow_sub₀ (by norm_num)]
    norm_num
    rfl
  · cases h

/-- The elements off the diagonal times the unknowns, added up. -/
def sumOff (r : List (Nat × Num binary64)) (i : Nat) (x : List (Num binary64)) (v : Num binary64) : Num binary64 :=
  r.foldl (fun v e => if e.1 = i then v else v + e.2 * x.getD e.1 0) v

theorem sumOff_fin {r : List (Nat × Num binary64)} {i : Nat} {x : List (Num binary64)} {v : Num binary64} {q : ℚ}
    (h : sumOff r i x v = fin q) : ∃ p, v = fin p := by
  induction r generalizing v with
  | nil => exact ⟨q, h⟩
  | cons e r ih =>
    simp only [sumOff, List.foldl_cons] at h
    split at h
    · exact ih h
    · obtain ⟨p, hp⟩ := ih h
      obtain ⟨a, -, ha, -⟩ := add_fin hp
      exact ⟨a, ha⟩

theorem getD_vec {n : Nat} (z : Fin n → ℚ) (j : Nat) : ((vec fun i => (fin (z i) : Num binary64)).getD j 0) =
    fin (if h : j < n then z ⟨j, h⟩ else 0) := by
  unfold vec
  rw [List.getD_eq_getElem?_getD, List.getElem?_ofFn]
  split <;> rfl

/-- The sum falls if the unknowns rise. -/
theorem sumOff_anti {n : Nat} {z z' : Fin n → ℚ} (hz : ∀ j, z j ≤ z' j) {i : Nat} (r : List (Nat × Num binary64))
    (hr : ∀ e ∈ r, e.1 ≠ i → ∃ a, e.2 = fin a ∧ a ≤ 0) : ∀ {p p' q q' : ℚ}, p' ≤ p →
    sumOff r i (vec fun i => fin (z i)) (fin p) = fin q → sumOff r i (vec fun i => fin (z' i)) (fin p') = fin q' → q' ≤ q := by
  induction r with
  | nil =>
    intro p p' q q' hp h1 h2
    cases h1; cases h2
    exact hp
  | cons e r ih =>
    intro p p' q q' hp h1 h2
    have hr' : ∀ e ∈ r, e.1 ≠ i → ∃ a, e.2 = fin a ∧ a ≤ 0 := fun e he => hr e (by simp [he])
    simp only [sumOff, List.foldl_cons] at h1 h2
    by_cases hi : e.1 = i
    · rw [if_pos hi] at h1 h2
      exact ih hr' hp h1 h2
    · obtain ⟨a, ha, ha0⟩ := hr e (by simp) hi
      rw [if_neg hi, ha, getD_vec] at h1 h2
      obtain ⟨s, hs⟩ := sumOff_fin h1
      obtain ⟨s', hs'⟩ := sumOff_fin h2
      rw [hs] at h1
      rw [hs'] at h2
      refine ih hr' ?_ h1 h2
      obtain ⟨_, t, e1, e2, e3⟩ := add_fin hs
      obtain ⟨_, t', f1, f2, f3⟩ := add_fin hs'
      rw [fin_inj] at e1 f1
      subst e1 f1
      refine binary64_fin_mono ?_ f3 e3
      have : t' ≤ t := by
        refine binary64_fin_mono (mul_le_mul_of_nonpos_left ?_ ha0) f2 e2
        split
        · exact hz _
        · exact le_rfl
      linarith

/-- A sum between sums that do not overflow does not overflow. -/
theorem sumOff_squeeze {n : Nat} {z z' z'' : Fin n → ℚ} (hz : ∀ j, z j ≤ z' j) (hz' : ∀ j, z' j ≤ z'' j) {i : Nat}
    (r : List (Nat × Num binary64)) (hr : ∀ e ∈ r, e.1 ≠ i → ∃ a, e.2 = fin a ∧ a ≤ 0) : ∀ {p p' p'' q q'' : ℚ}, p' ≤ p → p'' ≤ p' →
    sumOff r i (vec fun i => fin (z i)) (fin p) = fin q → sumOff r i (vec fun i => fin (z'' i)) (fin p'') = fin q'' →
    ∃ q', sumOff r i (vec fun i => fin (z' i)) (fin p') = fin q' := by
  induction r with
  | nil => intro p p' p'' q q'' _ _ _ _; exact ⟨p', rfl⟩
  | cons e r ih =>
    intro p p' p'' q q'' hp hp' h1 h2
    have hr' : ∀ e ∈ r, e.1 ≠ i → ∃ a, e.2 = fin a ∧ a ≤ 0 := fun e he => hr e (by simp [he])
    simp only [sumOff, List.foldl_cons] at h1 h2 ⊢
    by_cases hi : e.1 = i
    · rw [if_pos hi] at h1 h2 ⊢
      exact ih hr' hp hp' h1 h2
    · obtain ⟨a, ha, ha0⟩ := hr e (by simp) hi
      rw [if_neg hi, ha, getD_vec] at h1 h2 ⊢
      obtain ⟨s, hs⟩ := sumOff_fin h1
      obtain ⟨s', hs'⟩ := sumOff_fin h2
      rw [hs] at h1
      rw [hs'] at h2
      obtain ⟨_, t, e1, e2, e3⟩ := add_fin hs
      obtain ⟨_, t'', f1, f2, f3⟩ := add_fin hs'
      rw [fin_inj] at e1 f1
      subst e1 f1
      have l1 : a * (if h : e.1 < n then z' ⟨e.1, h⟩ else 0) ≤ a * (if h : e.1 < n then z ⟨e.1, h⟩ else 0) :=
        mul_le_mul_of_nonpos_left (by split <;> [exact hz _; exact le_rfl]) ha0
      have l2 : a * (if h : e.1 < n then z'' ⟨e.1, h⟩ else 0) ≤ a * (if h : e.1 < n then z' ⟨e.1, h⟩ else 0) :=
        mul_le_mul_of_nonpos_left (by split <;> [exact hz' _; exact le_rfl]) ha0
      obtain ⟨t', ht'⟩ := binary64_squeeze l2 l1 f2 e2
      have m1 := binary64_fin_mono l1 ht' e2
      have m2 := binary64_fin_mono l2 f2 ht'
      obtain ⟨s1, hs1⟩ := binary64_squeeze (q := p' + t') (by linarith) (by linarith) f3 e3
      have : (fin p' : Num binary64) + fin a * fin (if h : e.1 < n then z' ⟨e.1, h⟩ else 0) = fin s1 := by
        rw [mul64 ht']
        exact hs1
      rw [this]
      exact ih hr' (binary64_fin_mono (by linarith) hs1 e3) (binary64_fin_mono (by linarith) f3 hs1) h1 h2

section rows

variable {sqrt : Num binary64 → Num binary64} {n : Nat} {L : Rows (Num binary64)}

/-- The new value of an unknown, step by step. -/
theorem newValue_steps {b z : Fin n → ℚ} {d : ℚ} (hd : d ≠ 0) {i : Fin n} {y : ℚ}
    (h : newValue (floats binary64 sqrt) L (fun i => fin (b i)) (fin 1) (fin d) (fun i => fin (z i)) i = fin y) :
    ∃ s u v t, sumOff (row L i) i (vec fun i => fin (z i)) (fin 0) = fin s ∧ binary64 (b i - s) = .fin u ∧ binary64 (1 * u) = .fin v ∧
      binary64 (v / d) = .fin t ∧ binary64 (t + 0) = .fin y := by
  unfold newValue at h
  obtain ⟨t, w, h1, h2, h3⟩ := add_fin h
  have h0 : binary64 0 = .fin 0 := by decide +kernel
  have hw : w = 0 := by
    have e : ((floats binary64 sqrt).one - fin 1 : Num binary64) = fin 0 := by
      show (fin 1 : Num binary64) - fin 1 = _
      exact sub64 (by rw [sub_self]; exact h0)
    rw [e] at h2
    have : binary64 (0 * z i) = .fin w := h2
    rw [zero_mul, h0, Fl.fin.injEq] at this
    exact this.symm
  subst hw
  obtain ⟨v, h4, h5⟩ := div_fin hd h1
  obtain ⟨o, u, h6, h7, h8⟩ := mul_fin h4
  rw [fin_inj] at h6
  subst h6
  obtain ⟨b', s, h9, h10, h11⟩ := sub_fin h7
  rw [fin_inj] at h9
  subst h9
  exact ⟨s, u, v, t, h10, h11, h8, h5, h3⟩

theorem newValue_of_steps {b z : Fin n → ℚ} {d : ℚ} (hd : d ≠ 0) {i : Fin n} {s u v t y : ℚ}
    (h1 : sumOff (row L i) i (vec fun i => fin (z i)) (fin 0) = fin s) (h2 : binary64 (b i - s) = .fin u)
    (h3 : binary64 (1 * u) = .fin v) (h4 : binary64 (v / d) = .fin t) (h5 : binary64 (t + 0) = .fin y) :
    newValue (floats binary64 sqrt) L (fun i => fin (b i)) (fin 1) (fin d) (fun i => fin (z i)) i = fin y := by
  unfold newValue
  have h0 : binary64 0 = .fin 0 := by decide +kernel
  have e : ((floats binary64 sqrt).one - fin 1 : Num binary64) * fin (z i) = fin 0 := by
    show ((fin 1 : Num binary64) - fin 1) * fin (z i) = _
    rw [sub64 (c := 0) (by rw [sub_self]; exact h0)]
    exact mul64 (by rw [zero_mul]; exact h0)
  rw [e]
  have h1' : (row L i).foldl (fun v e => if e.1 = i.1 then v else v + e.2 * (vec fun i => (fin (z i) : Num binary64)).getD e.1 0) 0 = fin s :=
    h1
  rw [h1', sub64 h2, mul64 h3, div64 hd h4]
  exact h5

/-- The new value grows with the right hand side and the other unknowns. -/
theorem newValue_mono {b b' z z' : Fin n → ℚ} {d : ℚ} (hd : 0 < d) {i : Fin n} {y y' : ℚ}
    (hr : ∀ e ∈ row L i, e.1 ≠ i → ∃ a, e.2 = fin a ∧ a ≤ 0) (hb : b i ≤ b' i) (hz : ∀ j, z j ≤ z' j)
    (h : newValue (floats binary64 sqrt) L (fun i => fin (b i)) (fin 1) (fin d) (fun i => fin (z i)) i = fin y)
    (h' : newValue (floats binary64 sqrt) L (fun i => fin (b' i)) (fin 1) (fin d) (fun i => fin (z' i)) i = fin y') : y ≤ y' := by
  obtain ⟨s, u, v, t, h1, h2, h3, h4, h5⟩ := newValue_steps hd.ne' h
  obtain ⟨s', u', v', t', k1, k2, k3, k4, k5⟩ := newValue_steps hd.ne' h'
  have e1 := sumOff_anti hz _ hr le_rfl h1 k1
  have e2 := binary64_fin_mono (by linarith) h2 k2
  have e3 := binary64_fin_mono (by linarith) h3 k3
  have e4 := binary64_fin_mono (div_le_div_of_nonneg_right e3 hd.le) h4 k4
  exact binary64_fin_mono (by linarith) h5 k5

/-- A value between values that do not overflow does not overflow. -/
theorem newValue_squeeze {b z z' z'' : Fin n → ℚ} {d : ℚ} (hd : 0 < d) {i : Fin n} {y y'' : ℚ}
    (hr : ∀ e ∈ row L i, e.1 ≠ i → ∃ a, e.2 = fin a ∧ a ≤ 0) (hz : ∀ j, z j ≤ z' j) (hz' : ∀ j, z' j ≤ z'' j)
    (h : newValue (floats binary64 sqrt) L (fun i => fin (b i)) (fin 1) (fin d) (fun i => fin (z i)) i = fin y)
    (h'' : newValue (floats binary64 sqrt) L (fun i => fin (b i)) (fin 1) (fin d) (fun i => fin (z'' i)) i = fin y'') :
    ∃ y', newValue (floats binary64 sqrt) L (fun i => fin (b i)) (fin 1) (fin d) (fun i => fin (z' i)) i = fin y' := by
  obtain ⟨s, u, v, t, h1, h2, h3, h4, h5⟩ := newValue_steps hd.ne' h
  obtain ⟨s'', u'', v'', t'', k1, k2, k3, k4, k5⟩ := newValue_steps hd.ne' h''
  obtain ⟨s', l1⟩ := sumOff_squeeze hz hz' _ hr le_rfl le_rfl h1 k1
  have a1 := sumOff_anti hz _ hr le_rfl h1 l1
  have a2 := sumOff_anti hz' _ hr le_rfl l1 k1
  obtain ⟨u', l2⟩ := binary64_squeeze (q := b i - s') (by linarith) (by linarith) h2 k2
  have b1 := binary64_fin_mono (by linarith) h2 l2
  have b2 := binary64_fin_mono (by linarith) l2 k2
  obtain ⟨v', l3⟩ := binary64_squeeze (q := 1 * u') (by linarith) (by linarith) h3 k3
  have c1 := binary64_fin_mono (by linarith) h3 l3
  have c2 := binary64_fin_mono (by linarith) l3 k3
  have d1 := div_le_div_of_nonneg_right c1 hd.le
  have d2 := div_le_div_of_nonneg_right c2 hd.le
  obtain ⟨t', l4⟩ := binary64_squeeze d1 d2 h4 k4
  have e1 := binary64_fin_mono d1 h4 l4
  have e2 := binary64_fin_mono d2 l4 k4
  obtain ⟨y', l5⟩ := binary64_squeeze (q := t' + 0) (by linarith) (by linarith) h5 k5
  exact ⟨y', newValue_of_steps hd.ne' l1 l2 l3 l4 l5⟩

/-- The rows of a matrix of doubles with a stored diagonal. -/
structure FinRows (m : Sparse (Num binary64)) (L : Rows (Num binary64)) (a : Fin n → Fin n → ℚ) : Prop where
  rep : m.Rep L
  bounded : Bounded n L
  length : L.length = n
  diag : ∀ i : Fin n, entry L i i = some (fin (a i i))
  elem : ∀ i : Fin n, ∀ e ∈ row L i, ∃ h : e.1 < n, e.2 = fin (a i ⟨e.1, h⟩)

/-- The rows of a matrix of doubles with a positive diagonal and no other positive elements. -/
structure SignedRows (m : Sparse (Num binary64)) (L : Rows (Num binary64)) (a : Fin n → Fin n → ℚ) : Prop extends FinRows m L a where
  pos : ∀ i, 0 < a i i
  off : ∀ i : Fin n, ∀ e ∈ row L i, e.1 ≠ i → ∃ q, e.2 = fin q ∧ q ≤ 0

theorem finRows {m : Sparse (Num binary64)} {a : Fin n → Fin n → ℚ} (hm : Square m fun i j => (fin (a i j) : Num binary64))
    (ha : ∀ i, a i i ≠ 0) : ∃ L, FinRows m L a := by
  obtain ⟨L, h1, h2, h3, h4, h5⟩ := square_rep hm
  refine ⟨L, h1, h3, h4, fun i => diag_entry h5 i (ha i), fun i e he => ?_⟩
  have hb := h3 i e he
  have e1 : entry L i e.1 = some e.2 := (lookup_eq_some (h2 i)).mpr he
  have e2 := h5 i ⟨e.1, hb⟩
  rw [e1, Option.getD_some] at e2
  exact ⟨hb, e2⟩

theorem signedRows {m : Sparse (Num binary64)} {a : Fin n → Fin n → ℚ} (hm : Square m fun i j => (fin (a i j) : Num binary64))
    (ha : Signed a) : ∃ L, SignedRows m L a := by
  obtain ⟨L, hL⟩ := finRows hm fun i => (ha.1 i).ne'
  refine ⟨L, hL, ha.1, fun i e he hi => ?_⟩
  obtain ⟨hb, e2⟩ := hL.elem i e he
  exact ⟨_, e2, ha.2 i ⟨e.1, hb⟩ fun h => hi (congrArg Fin.val h).symm⟩

/-- A method and the relation between its iterates, if no number overflows. -/
def NextF (sqrt : Num binary64 → Num binary64) (L : Rows (Num binary64)) (a : Fin n → Fin n → ℚ) (b : Fin n → ℚ) (k : Method)
    (x y : Fin n → ℚ) : Prop :=
  ∀ i, newValue (floats binary64 sqrt) L (fun i => fin (b i)) (fin 1) (fin (a i i))
    (fun j => fin (if k ≠ .jacobi ∧ j < i then y j else x j)) i = fin (y i)

theorem used_le {k : Method} {x y x' y' : Fin n → ℚ} {i : Fin n} (hx : ∀ j, x j ≤ x' j) (hy : ∀ j, j < i → y j ≤ y' j) (j : Fin n) :
    (if k ≠ .jacobi ∧ j < i then y j else x j) ≤ if k ≠ .jacobi ∧ j < i then y' j else x' j := by
  split
  · rename_i h; exact hy j h.2
  · exact hx j

variable {m : Sparse (Num binary64)} {a : Fin n → Fin n → ℚ} {k : Method}

theorem omega_one (hk : k ≠ .sor) : (if k = .sor then (floats binary64 sqrt).threeHalves else (floats binary64 sqrt).one) = fin 1 := by
  rw [if_neg hk]; rfl

theorem nextF_mono (h : SignedRows m L a) {b b' x x' y y' : Fin n → ℚ} (hb : ∀ i, b i ≤ b' i) (hx : ∀ i, x i ≤ x' i)
    (h1 : NextF sqrt L a b k x y) (h2 : NextF sqrt L a b' k x' y') (i : Fin n) : y i ≤ y' i :=
  fin_strong (p := fun i => y i ≤ y' i)
    (fun i ih => newValue_mono (h.pos i) (h.off i) (hb i) (used_le hx ih) (h1 i) (h2 i)) i

/-- An iteration that does not overflow, from values that are finite. -/
theorem step_nextF (h : FinRows m L a) (hk : k ≠ .sor) (s : FixedPoint (Num binary64)) {b : Fin n → ℚ} {x y : Fin n → Num binary64}
    {w w' : List (Num binary64)} (hw : k = .jacobi → w.length = n) {y' : Fin n → ℚ} (hy : y = fun i => fin (y' i))
    (hs : step (floats binary64 sqrt) k s m (vec fun i => fin (b i)) (vec x, w) = .ok (vec y, w')) :
    ∃ x' : Fin n → ℚ, x = (fun i => fin (x' i)) ∧ NextF sqrt L a b k x' y' := by
  obtain ⟨v, v', e1, -, e3⟩ := step_gen (floats binary64 sqrt) k s h.rep h.bounded h.length (fun i => fin (a i i)) h.diag
    (fun i => fin (b i)) x w hw
  rw [hs, Out.ok.injEq, Prod.mk.injEq, vec_inj] at e1
  obtain ⟨rfl, -⟩ := e1
  simp only [omega_one hk] at e3
  have hx : ∀ i, ∃ q, x i = fin q := fun i => by
    have e := e3 i
    rw [hy] at e
    unfold newValue at e
    obtain ⟨_, w, -, h2, -⟩ := add_fin e.symm
    obtain ⟨_, q, -, h3, -⟩ := mul_fin h2
    exact ⟨q, (if_neg (fun h => lt_irrefl _ h.2)).symm.trans h3⟩
  choose x' hx' using hx
  refine ⟨x', funext hx', fun i => ?_⟩
  have e := e3 i
  rw [hy] at e
  refine Eq.trans ?_ e.symm
  congr 1
  funext j
  split
  · rfl
  · exact (hx' j).symm

theorem nextF_step (h : FinRows m L a) (hk : k ≠ .sor) (s : FixedPoint (Num binary64)) {b x y : Fin n → ℚ}
    {w : List (Num binary64)} (hw : k = .jacobi → w.length = n) (hn : NextF sqrt L a b k x y) :
    ∃ w', step (floats binary64 sqrt) k s m (vec fun i => fin (b i)) (vec fun i => fin (x i), w) = .ok (vec fun i => fin (y i), w') ∧
      (k = .jacobi → w'.length = n) := by
  obtain ⟨v, v', e1, e2, e3⟩ := step_gen (floats binary64 sqrt) k s h.rep h.bounded h.length (fun i => fin (a i i)) h.diag
    (fun i => fin (b i)) (fun i => fin (x i)) w hw
  simp only [omega_one hk] at e3
  have : v = fun i => fin (y i) := funext fun i =>
    fin_strong (p := fun i => v i = fin (y i)) (fun i ih => by
      rw [e3 i, ← hn i]
      congr 1
      funext j
      split
      · rename_i hj; exact ih j hj.2
      · rfl) i
  subst this
  exact ⟨v', e1, e2⟩

/-- Between iterations that do not overflow there is no overflow. -/
theorem nextF_squeeze (h : SignedRows m L a) (hk : k ≠ .sor) (s : FixedPoint (Num binary64)) {b x x' z y z' : Fin n → ℚ} (hx : ∀ i, x i ≤ x' i) (hz : ∀ i, x' i ≤ z i)
    (h1 : NextF sqrt L a b k x y) (h2 : NextF sqrt L a b k z z') : ∃ y', NextF sqrt L a b k x' y' := by
  obtain ⟨v, v', e1, e2, e3⟩ := step_gen (floats binary64 sqrt) k s h.rep h.bounded h.length (fun i => fin (a i i)) h.diag
    (fun i => fin (b i)) (fun i => fin (x' i)) (List.replicate n 0) (by simp)
  simp only [omega_one hk] at e3
  have key : ∀ i, ∃ q, v i = fin q ∧ y i ≤ q ∧ q ≤ z' i := by
    refine fin_strong fun i ih => ?_
    choose! q hq using ih
    have e4 : (fun j => if k ≠ .jacobi ∧ j < i then v j else fin (x' j)) = fun j => fin (if k ≠ .jacobi ∧ j < i then q j else x' j) := by
      funext j
      split
      · rename_i hj; exact (hq j hj.2).1
      · rfl
    have e5 := e3 i
    rw [e4] at e5
    have u1 := used_le (k := k) hx fun j hj => (hq j hj).2.1
    have u2 := used_le (k := k) hz fun j hj => (hq j hj).2.2
    obtain ⟨p, hp⟩ := newValue_squeeze (h.pos i) (h.off i) u1 u2 (h1 i) (h2 i)
    exact ⟨p, e5.trans hp, newValue_mono (h.pos i) (h.off i) le_rfl u1 (h1 i) hp, newValue_mono (h.pos i) (h.off i) le_rfl u2 hp (h2 i)⟩
  choose q hq using key
  refine ⟨q, fun i => ?_⟩
  rw [← (hq i).1, e3 i]
  congr 1
  funext j
  split
  · exact (hq j).1.symm
  · rfl

theorem nextF_double (h : SignedRows m L a) {b x y : Fin n → ℚ} (h1 : NextF sqrt L a b k x y) (i : Fin n) :
    ∃ q : ℤ, y i = q * (1 / 2 ^ 1074) := by
  obtain ⟨_, _, _, _, -, -, -, -, e⟩ := newValue_steps (h.pos i).ne' (h1 i)
  exact multiple_of_least e

theorem nextF_times (h : FinRows m L a) (hk : k ≠ .sor) (s : FixedPoint (Num binary64)) {b : Fin n → ℚ} {xs : Nat → Fin n → ℚ}
    {w : List (Num binary64)} (hw : k = .jacobi → w.length = n) (hn : ∀ j, NextF sqrt L a b k (xs j) (xs (j + 1))) (j : Nat) :
    ∃ w', times (step (floats binary64 sqrt) k s m (vec fun i => fin (b i))) j (vec fun i => fin (xs 0 i), w) =
      .ok (vec fun i => fin (xs j i), w') ∧ (k = .jacobi → w'.length = n) := by
  induction j with
  | zero => exact ⟨w, rfl, hw⟩
  | succ j ih =>
    obtain ⟨w', e1, e2⟩ := ih
    obtain ⟨w'', e3, e4⟩ := nextF_step h hk s e2 (hn j)
    exact ⟨w'', by rw [times_succ, e1]; exact e3, e4⟩

/-- If a later iterate is finite, so are those before it. -/
theorem times_nextF (h : FinRows m L a) (hk : k ≠ .sor) (s : FixedPoint (Num binary64)) {b : Fin n → ℚ} {x y : Fin n → ℚ}
    {w v : List (Num binary64)} (hw : k = .jacobi → w.length = n) {j : Nat}
    (hj : times (step (floats binary64 sqrt) k s m (vec fun i => fin (b i))) j (vec fun i => fin (x i), w) = .ok (vec fun i => fin (y i), v)) :
    ∃ xs : Nat → Fin n → ℚ, xs 0 = x ∧ xs j = y ∧ ∀ l, l < j → NextF sqrt L a b k (xs l) (xs (l + 1)) := by
  choose Y W g1 g2 using fun p : {p : (Fin n → Num binary64) × List (Num binary64) // k = .jacobi → p.2.length = n} =>
    step_gen (floats binary64 sqrt) k s h.rep h.bounded h.length (fun i => fin (a i i)) h.diag (fun i => fin (b i)) p.1.1 p.1.2 p.2
  let st : Nat → {p : (Fin n → Num binary64) × List (Num binary64) // k = .jacobi → p.2.length = n} :=
    Nat.rec ⟨(fun i => fin (x i), w), hw⟩ (fun _ p => ⟨(Y p, W p), (g2 p).1⟩)
  have hst : ∀ l, times (step (floats binary64 sqrt) k s m (vec fun i => fin (b i))) l (vec fun i => fin (x i), w) =
      .ok (vec (st l).1.1, (st l).1.2) := by
    intro l
    induction l with
    | zero => rfl
    | succ l ih => rw [times_succ, ih]; exact g1 (st l)
  have e := hst j
  rw [hj, Out.ok.injEq, Prod.mk.injEq, vec_inj] at e
  have hfin : ∀ d ≤ j, ∃ q : Fin n → ℚ, (st (j - d)).1.1 = fun i => fin (q i) := by
    intro d
    induction d with
    | zero => exact fun _ => ⟨y, e.1.symm⟩
    | succ d ih =>
      intro hd
      obtain ⟨q, hq⟩ := ih (by omega)
      obtain ⟨q', hq', -⟩ := step_nextF h hk s (st (j - (d + 1))).2 hq (w' := (st (j - d)).1.2) (by
        have := g1 (st (j - (d + 1)))
        rw [show j - d = j - (d + 1) + 1 by omega]
        exact this)
      exact ⟨q', hq'⟩
  have hfin' : ∀ l, ∃ q : Fin n → ℚ, l ≤ j → (st l).1.1 = fun i => fin (q i) := fun l => by
    by_cases hl : l ≤ j
    · obtain ⟨q, hq⟩ := hfin (j - l) (by omega)
      rw [Nat.sub_sub_self hl] at hq
      exact ⟨q, fun _ => hq⟩
    · exact ⟨fun _ => 0, fun h => absurd h hl⟩
  choose xs hxs using hfin'
  have inj : ∀ {u v : Fin n → ℚ}, (fun i => (fin (u i) : Num binary64)) = (fun i => fin (v i)) → u = v := fun h =>
    funext fun i => (fin_inj.mp (congrFun h i))
  refine ⟨xs, inj (hxs 0 (Nat.zero_le _)).symm, inj ((hxs j le_rfl).symm.trans e.1.symm), fun l hl => ?_⟩
  obtain ⟨q, hq, hn⟩ := step_nextF h hk s (st l).2 (hxs (l + 1) hl) (g1 (st l))
  rwa [inj (hq.symm.trans (hxs l hl.le))] at hn

end rows

/-- A sequence of vectors of integers that rises and is bounded becomes constant. -/
theorem rise_constant {n : Nat} (f : Nat → Fin n → ℤ) (B : Fin n → ℤ) (h1 : ∀ j i, f j i ≤ f (j + 1) i) (h2 : ∀ j i, f j i ≤ B i) :
    ∃ J, ∀ j, J ≤ j → f j = f J := by
  obtain ⟨J, hJ⟩ : ∃ J, ∀ j, (∑ i, (B i - f J i)) ≤ ∑ i, (B i - f j i) := by
    obtain ⟨v, ⟨J, hJ⟩, hv⟩ := (wellFounded_lt (α := Nat)).has_min (Set.range fun j => (∑ i, (B i - f j i)).toNat) ⟨_, 0, rfl⟩
    refine ⟨J, fun j => ?_⟩
    have e := hv _ ⟨j, rfl⟩
    have p1 : 0 ≤ ∑ i, (B i - f J i) := Finset.sum_nonneg fun i _ => by linarith [h2 J i]
    have p2 : 0 ≤ ∑ i, (B i - f j i) := Finset.sum_nonneg fun i _ => by linarith [h2 j i]
    simp only at hJ e
    omega
  have hm : ∀ d i, f J i ≤ f (J + d) i := by
    intro d
    induction d with
    | zero => exact fun i => le_rfl
    | succ d ih => exact fun i => (ih i).trans (h1 _ i)
  refine ⟨J, fun j hj => ?_⟩
  obtain ⟨d, rfl⟩ := Nat.exists_eq_add_of_le hj
  funext i
  by_contra hne
  have hlt : f J i < f (J + d) i := lt_of_le_of_ne (hm d i) fun h => hne h.symm
  have := hJ (J + d)
  have : ∑ i, (B i - f (J + d) i) < ∑ i, (B i - f J i) :=
    Finset.sum_lt_sum (fun i _ => by linarith [hm d i]) ⟨i, Finset.mem_univ _, by linarith⟩
  omega

/-- A sequence of vectors of multiples of a number that rises and is bounded becomes constant. -/
theorem rise_stationary {n : Nat} {u : ℚ} (hu : 0 < u) (xs : Nat → Fin n → ℚ) (z : Fin n → ℚ) (hd : ∀ j i, ∃ q : ℤ, xs (j + 1) i = q * u)
    (h1 : ∀ j i, xs j i ≤ xs (j + 1) i) (h2 : ∀ j i, xs j i ≤ z i) : ∃ J, ∀ j, J ≤ j → xs j = xs J := by
  choose f hf using hd
  obtain ⟨J, hJ⟩ := rise_constant f (fun i => ⌊z i / u⌋)
    (fun j i => by
      have := h1 (j + 1) i
      rw [hf, hf] at this
      exact_mod_cast le_of_mul_le_mul_right this hu)
    (fun j i => by
      rw [Int.le_floor, le_div_iff₀ hu, ← hf]
      exact h2 _ i)
  refine ⟨J + 1, fun j hj => ?_⟩
  obtain ⟨d, rfl⟩ := Nat.exists_eq_add_of_le hj
  funext i
  rw [show J + 1 + d = (J + d) + 1 by omega, hf, hf, hJ (J + d) (by omega)]

theorem fall_stationary {n : Nat} {u : ℚ} (hu : 0 < u) (xs : Nat → Fin n → ℚ) (z : Fin n → ℚ) (hd : ∀ j i, ∃ q : ℤ, xs (j + 1) i = q * u)
    (h1 : ∀ j i, xs (j + 1) i ≤ xs j i) (h2 : ∀ j i, z i ≤ xs j i) : ∃ J, ∀ j, J ≤ j → xs j = xs J := by
  obtain ⟨J, hJ⟩ := rise_stationary hu (fun j i => -xs j i) (fun i => -z i)
    (fun j i => by obtain ⟨q, hq⟩ := hd j i; exact ⟨-q, by rw [hq]; push_cast; ring⟩)
    (fun j i => neg_le_neg (h1 j i)) (fun j i => neg_le_neg (h2 j i))
  exact ⟨J, fun j hj => funext fun i => neg_inj.mp (congrFun (hJ j hj) i)⟩

variable {sqrt : Num binary64 → Num binary64} {n : Nat} {m : Sparse (Num binary64)} {a : Fin n → Fin n → ℚ} {k : Method}

/-- C170: with doubles too the iterates grow with the right hand side and with the start. -/
theorem c170_monotone (hk : k ≠ .sor) (s s' : FixedPoint (Num binary64)) (hm : Square m fun i j => (fin (a i j) : Num binary64))
    (ha : Signed a) (b b' x x' y y' : Fin n → ℚ) (w w' v v' : List (Num binary64)) (hw : k = .jacobi → w.length = n)
    (hw' : k = .jacobi → w'.length = n) (hb : ∀ i, b i ≤ b' i) (hx : ∀ i, x i ≤ x' i) (j : Nat)
    (h : times (step (floats binary64 sqrt) k s m (vec fun i => fin (b i))) j (vec fun i => fin (x i), w) = .ok (vec fun i => fin (y i), v))
    (h' : times (step (floats binary64 sqrt) k s' m (vec fun i => fin (b' i))) j (vec fun i => fin (x' i), w') =
      .ok (vec fun i => fin (y' i), v')) (i : Fin n) : y i ≤ y' i := by
  obtain ⟨L, hL⟩ := signedRows hm ha
  obtain ⟨xs, rfl, rfl, e1⟩ := times_nextF hL.toFinRows hk s hw h
  obtain ⟨ys, rfl, rfl, e2⟩ := times_nextF hL.toFinRows hk s' hw' h'
  have key : ∀ l ≤ j, ∀ i, xs l i ≤ ys l i := by
    intro l
    induction l with
    | zero => exact fun _ => hx
    | succ l ih => exact fun hl => nextF_mono hL hb (ih (by omega)) (e1 l (by omega)) (e2 l (by omega))
  exact key j le_rfl i

/-- The iterates between two vectors that the iteration moves towards each other. -/
theorem nextF_between {L : Rows (Num binary64)} (hL : SignedRows m L a) (hk : k ≠ .sor) (s : FixedPoint (Num binary64)) {b x x' z z' : Fin n → ℚ}
    (h1 : NextF sqrt L a b k x x') (h2 : NextF sqrt L a b k z z') (hx : ∀ i, x i ≤ x' i) (hz : ∀ i, z' i ≤ z i) (u : Fin n → ℚ)
    (hu : ∀ i, x i ≤ u i) (hu' : ∀ i, u i ≤ z i) :
    ∃ xs : Nat → Fin n → ℚ, xs 0 = u ∧ (∀ j, NextF sqrt L a b k (xs j) (xs (j + 1))) ∧ (∀ j i, x i ≤ xs j i) ∧ ∀ j i, xs j i ≤ z i := by
  have key : ∀ p : {p : Fin n → ℚ // (∀ i, x i ≤ p i) ∧ ∀ i, p i ≤ z i}, ∃ q, NextF sqrt L a b k p.1 q ∧ (∀ i, x i ≤ q i) ∧ ∀ i, q i ≤ z i := by
    rintro ⟨p, hp1, hp2⟩
    obtain ⟨q, hq⟩ := nextF_squeeze hL hk s hp1 hp2 h1 h2
    exact ⟨q, hq, fun i => (hx i).trans (nextF_mono hL (fun _ => le_rfl) hp1 h1 hq i),
      fun i => (nextF_mono hL (fun _ => le_rfl) hp2 hq h2 i).trans (hz i)⟩
  choose Y g1 g2 g3 using key
  let st : Nat → {p : Fin n → ℚ // (∀ i, x i ≤ p i) ∧ ∀ i, p i ≤ z i} := Nat.rec ⟨u, hu, hu'⟩ fun _ p => ⟨Y p, g2 p, g3 p⟩
  exact ⟨fun j => (st j).1, rfl, fun j => g1 (st j), fun j => (st j).2.1, fun j => (st j).2.2⟩

/-- C170: if the iteration raises `x` and does not raise `z`, and `x` is not above `z`, then the iterates from each vector between
them stay between them without overflow, those from `x` rise until they stay the same, and those from `z` fall until they stay the
same, never below those from `x`. -/
theorem c170_settles (hk : k ≠ .sor) (s : FixedPoint (Num binary64)) (hm : Square m fun i j => (fin (a i j) : Num binary64))
    (ha : Signed a) (b x x' z z' : Fin n → ℚ) (w v v' : List (Num binary64)) (hw : k = .jacobi → w.length = n)
    (h1 : step (floats binary64 sqrt) k s m (vec fun i => fin (b i)) (vec fun i => fin (x i), w) = .ok (vec fun i => fin (x' i), v))
    (h2 : step (floats binary64 sqrt) k s m (vec fun i => fin (b i)) (vec fun i => fin (z i), w) = .ok (vec fun i => fin (z' i), v'))
    (hx : ∀ i, x i ≤ x' i) (hz : ∀ i, z' i ≤ z i) (hxz : ∀ i, x i ≤ z i) :
    ∃ xs zs : Nat → Fin n → ℚ,
      (∀ j, ∃ w', times (step (floats binary64 sqrt) k s m (vec fun i => fin (b i))) j (vec fun i => fin (x i), w) =
        .ok (vec fun i => fin (xs j i), w')) ∧
      (∀ j, ∃ w', times (step (floats binary64 sqrt) k s m (vec fun i => fin (b i))) j (vec fun i => fin (z i), w) =
        .ok (vec fun i => fin (zs j i), w')) ∧
      (∀ j i, xs j i ≤ xs (j + 1) i) ∧ (∀ j i, zs (j + 1) i ≤ zs j i) ∧ (∀ j i, xs j i ≤ zs j i) ∧
      (∃ J, ∀ j, J ≤ j → xs j = xs J ∧ zs j = zs J) ∧
      ∀ u : Fin n → ℚ, (∀ i, x i ≤ u i) → (∀ i, u i ≤ z i) → ∀ j, ∃ (y : Fin n → ℚ) (w' : List (Num binary64)),
        times (step (floats binary64 sqrt) k s m (vec fun i => fin (b i))) j (vec fun i => fin (u i), w) = .ok (vec fun i => fin (y i), w') ∧
        ∀ i, xs j i ≤ y i ∧ y i ≤ zs j i := by
  obtain ⟨L, hL⟩ := signedRows hm ha
  have inj : ∀ {u v : Fin n → ℚ}, (fun i => (fin (u i) : Num binary64)) = (fun i => fin (v i)) → u = v := fun h =>
    funext fun i => (fin_inj.mp (congrFun h i))
  obtain ⟨p, hp, n1⟩ := step_nextF hL.toFinRows hk s hw rfl h1
  obtain ⟨q, hq, n2⟩ := step_nextF hL.toFinRows hk s hw rfl h2
  obtain rfl := inj hp
  obtain rfl := inj hq
  obtain ⟨xs, x0, xn, x1, x2⟩ := nextF_between hL hk s n1 n2 hx hz x (fun _ => le_rfl) hxz
  obtain ⟨zs, z0, zn, z1, z2⟩ := nextF_between hL hk s n1 n2 hx hz z hxz (fun _ => le_rfl)
  have hmono := @nextF_mono sqrt n L m a k hL b b
  have r1 : ∀ j i, xs j i ≤ xs (j + 1) i := by
    intro j
    induction j with
    | zero => rw [x0]; exact x1 1
    | succ j ih => exact hmono (fun _ => le_rfl) ih (xn j) (xn (j + 1))
  have r2 : ∀ j i, zs (j + 1) i ≤ zs j i := by
    intro j
    induction j with
    | zero => rw [z0]; exact z2 1
    | succ j ih => exact hmono (fun _ => le_rfl) ih (zn (j + 1)) (zn j)
  have bet : ∀ us : Nat → Fin n → ℚ, (∀ i, x i ≤ us 0 i) → (∀ i, us 0 i ≤ z i) → (∀ j, NextF sqrt L a b k (us j) (us (j + 1))) →
      ∀ j i, xs j i ≤ us j i ∧ us j i ≤ zs j i := by
    intro us u0 u1 un j
    induction j with
    | zero => rw [x0, z0]; exact fun i => ⟨u0 i, u1 i⟩
    | succ j ih => exact fun i => ⟨hmono (fun _ => le_rfl) (fun i => (ih i).1) (xn j) (un j) i,
        hmono (fun _ => le_rfl) (fun i => (ih i).2) (un j) (zn j) i⟩
  have t1 := nextF_times hL.toFinRows hk s hw xn
  have t2 := nextF_times hL.toFinRows hk s hw zn
  rw [x0] at t1
  rw [z0] at t2
  have hu : (0 : ℚ) < 1 / 2 ^ 1074 := by positivity
  obtain ⟨J1, s1⟩ := rise_stationary hu xs z (fun j => nextF_double hL (xn j)) r1 x2
  obtain ⟨J2, s2⟩ := fall_stationary hu zs x (fun j => nextF_double hL (zn j)) r2 z1
  refine ⟨xs, zs, fun j => ⟨_, (t1 j).choose_spec.1⟩, fun j => ⟨_, (t2 j).choose_spec.1⟩, r1, r2,
    fun j i => (bet xs (fun i => by rw [x0]) (fun i => by rw [x0]; exact hxz i) xn j i).2,
    ⟨max J1 J2, fun j hj => ?_⟩, fun u u1 u2 j => ?_⟩
  · rw [s1 j (by omega), s2 j (by omega), s1 (max J1 J2) (by omega), s2 (max J1 J2) (by omega)]
    exact ⟨rfl, rfl⟩
  · obtain ⟨us, rfl, un, -, -⟩ := nextF_between hL hk s n1 n2 hx hz u u1 u2
    obtain ⟨w', e, -⟩ := nextF_times hL.toFinRows hk s hw un j
    exact ⟨us j, w', e, bet us u1 u2 un j⟩

/-- The hypotheses hold for a system with two unknowns where the iterates from 0 rise, those from 1 fall, and the quotients are
rounded. -/
example (sqrt : Num binary64 → Num binary64) :
    ∃ xs zs : Nat → Fin 2 → ℚ, (∀ j, ∃ w', times (Iterative.step (floats binary64 sqrt) .gaussSeidel ⟨⟨0, 100, fin 0⟩, [], fin 1⟩
        (dense2 (fin 3) (fin (-1)) (fin (-1)) (fin 3)) (vec fun _ : Fin 2 => fin 1)) j (vec fun _ : Fin 2 => fin 0, []) =
          .ok (vec fun i => fin (xs j i), w')) ∧
      (∀ j i, xs j i ≤ xs (j + 1) i ∧ zs (j + 1) i ≤ zs j i ∧ xs j i ≤ zs j i) ∧ ∃ J, ∀ j, J ≤ j → xs j = xs J ∧ zs j = zs J := by
  have hm : Square (dense2 (fin 3) (fin (-1)) (fin (-1)) (fin 3) : Sparse (Num binary64))
      fun i j => fin ((![![3, -1], ![-1, 3]] : Fin 2 → Fin 2 → ℚ) i j) := by
    refine ⟨Built.ofLists (nz := [0, 2, 4]) (ix := [0, 1, 0, 1]) (vs := [fin 3, fin (-1), fin (-1), fin 3]) (c := 2)
      (by simp [sizeMax]) (by simp [sizeMax]) (dense2_lists _ _ _ _), rfl, rfl, ?_⟩
    intro i j
    fin_cases i <;> fin_cases j <;> rfl
  have ha : Signed (![![3, -1], ![-1, 3]] : Fin 2 → Fin 2 → ℚ) := by unfold Signed; decide +kernel
  have h1 : Iterative.step (floats binary64 sqrt) .gaussSeidel ⟨⟨0, 100, fin 0⟩, [], fin 1⟩ (dense2 (fin 3) (fin (-1)) (fin (-1)) (fin 3))
      (vec fun _ : Fin 2 => fin 1) (vec fun _ : Fin 2 => fin 0, []) =
        .ok (vec fun i : Fin 2 => fin (![near64 (1 / 3), near64 (near64 (1 + near64 (1 / 3)) / 3)] i), []) := by
    have : Iterative.step (floats binary64 id) .gaussSeidel ⟨⟨0, 100, fin 0⟩, [], fin 1⟩ (dense2 (fin 3) (fin (-1)) (fin (-1)) (fin 3))
      (vec fun _ : Fin 2 => fin 1) (vec fun _ : Fin 2 => fin 0, []) =
        .ok (vec fun i : Fin 2 => fin (![near64 (1 / 3), near64 (near64 (1 + near64 (1 / 3)) / 3)] i), []) := by decide +kernel
    exact this
  have h2 : Iterative.step (floats binary64 sqrt) .gaussSeidel ⟨⟨0, 100, fin 0⟩, [], fin 1⟩ (dense2 (fin 3) (fin (-1)) (fin (-1)) (fin 3))
      (vec fun _ : Fin 2 => fin 1) (vec fun _ : Fin 2 => fin 1, []) =
        .ok (vec fun i : Fin 2 => fin (![near64 (2 / 3), near64 (near64 (1 + near64 (2 / 3)) / 3)] i), []) := by
    have : Iterative.step (floats binary64 id) .gaussSeidel ⟨⟨0, 100, fin 0⟩, [], fin 1⟩ (dense2 (fin 3) (fin (-1)) (fin (-1)) (fin 3))
      (vec fun _ : Fin 2 => fin 1) (vec fun _ : Fin 2 => fin 1, []) =
        .ok (vec fun i : Fin 2 => fin (![near64 (2 / 3), near64 (near64 (1 + near64 (2 / 3)) / 3)] i), []) := by decide +kernel
    exact this
  obtain ⟨xs, zs, e1, -, e3, e4, e5, ⟨J, e6⟩, -⟩ := c170_settles (by simp) _ hm ha (fun _ => 1) (fun _ => 0) _ (fun _ => 1) _ [] [] []
    (by simp) h1 h2 (by decide +kernel) (by decide +kernel) (by decide +kernel)
  refine ⟨xs, zs, e1, fun j i => ⟨e3 j i, e4 j i, e5 j i⟩, J, fun j hj => (e6 j hj)⟩

end Disa.Props
