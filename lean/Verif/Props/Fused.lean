import Verif.Solver.LuFused
import Verif.Props.LuFloat
import Verif.Props.Round

/-!
# Property C217: the rounding errors with fused operations
-/

namespace Disa.Props

open Disa Spec Dense Lu

variable {rnd : ℚ → Fl} {fuse : Hist → Hist → Hist → Bool} {u η : ℚ}

/-! ### Sums of products -/

/-- The product of two numbers, which may be exact, added to a third. -/
theorem step_near (h : Rounds rnd u η) {s r a b S T : ℚ} {e : ℚ} (e1 : |r - a * b| ≤ u * |a * b| + η) {q : ℚ}
    (h2 : rnd (s + r) = .fin q) (he : |s - S| ≤ e) (hT : |S| ≤ T) :
    |q - (S + a * b)| ≤ (1 + u) * e + u * T + (2 * u + u ^ 2) * |a * b| + (2 + u) * η := by
  have hu := h.u_nonneg
  have hη := h.η_nonneg
  have e2 := h.error _ _ h2
  have e3 : |s + r - (S + a * b)| ≤ e + (u * |a * b| + η) := by
    rw [show s + r - (S + a * b) = (s - S) + (r - a * b) by ring]
    exact (abs_add_le _ _).trans (add_le_add he e1)
  have e4 : |s + r| ≤ T + |a * b| + (e + (u * |a * b| + η)) := by
    rw [show s + r = S + a * b + (s + r - (S + a * b)) by ring]
    exact (abs_add_le _ _).trans (add_le_add ((abs_add_le _ _).trans (add_le_add hT le_rfl)) e3)
  have e5 : |q - (S + a * b)| ≤ (u * |s + r| + η) + (e + (u * |a * b| + η)) := by
    rw [show q - (S + a * b) = (q - (s + r)) + (s + r - (S + a * b)) by ring]
    exact (abs_add_le _ _).trans (add_le_add e2 e3)
  have e6 := mul_le_mul_of_nonneg_left e4 hu
  linarith

theorem sum_fused (h : Rounds rnd u η) (l : List (Fused rnd fuse × Fused rnd fuse)) :
    (l.foldl (fun (s : Fused rnd fuse) p => s + p.1 * p.2) 0).IsFin →
    (∀ p ∈ l, p.1.IsFin ∧ p.2.IsFin) ∧
      |(l.foldl (fun (s : Fused rnd fuse) p => s + p.1 * p.2) 0).val - (l.map fun p => p.1.val * p.2.val).sum| ≤
        productError u η l.length (l.map fun p => |p.1.val * p.2.val|).sum := by
  have hu := h.u_nonneg
  have hη := h.η_nonneg
  induction l using List.reverseRecOn with
  | nil =>
    intro hr
    refine ⟨by simp, ?_⟩
    have : ((0 : Fused rnd fuse)).val = 0 := rfl
    simp [productError, this]
  | append_singleton l p ih =>
    intro hq
    rw [List.foldl_append, List.foldl_cons, List.foldl_nil] at hq ⊢
    obtain ⟨h1, h2, h3, r, h4, h5⟩ := Fused.add_mul_fin h hq
    obtain ⟨i1, i2⟩ := ih h1
    refine ⟨?_, ?_⟩
    · intro p' hp'
      rw [List.mem_append, List.mem_singleton] at hp'
      rcases hp' with hp' | rfl
      · exact i1 p' hp'
      · exact ⟨h2, h3⟩
    · have hT : |(l.map fun p => p.1.val * p.2.val).sum| ≤ (l.map fun p => |p.1.val * p.2.val|).sum := by
        have := abs_sum_le (l.map fun p => (p.1.val, p.2.val))
        simpa only [List.map_map, Function.comp_def] using this
      have := step_near h h4 h5 i2 hT
      simp only [List.map_append, List.map_cons, List.map_nil, List.sum_append, List.sum_cons, List.sum_nil, add_zero,
        List.length_append, List.length_cons, List.length_nil, Nat.zero_add]
      exact this.trans (productError_step hu hη _ (abs_nonneg _))

theorem sum_fused_finite (h : Rounds rnd u η) {M : ℚ} (hM : Range rnd M) (l : List (Fused rnd fuse × Fused rnd fuse))
    (hl : ∀ p ∈ l, p.1.IsFin ∧ p.2.IsFin) :
    (l.map fun p => |p.1.val * p.2.val|).sum + productError u η l.length (l.map fun p => |p.1.val * p.2.val|).sum ≤ M →
    (l.foldl (fun (s : Fused rnd fuse) p => s + p.1 * p.2) 0).IsFin := by
  have hu := h.u_nonneg
  have hη := h.η_nonneg
  induction l using List.reverseRecOn with
  | nil => exact fun _ => rfl
  | append_singleton t p ih =>
    intro hb
    simp only [List.map_append, List.map_cons, List.map_nil, List.sum_append, List.sum_cons, List.sum_nil, add_zero,
      List.length_append, List.length_cons, List.length_nil, Nat.zero_add] at hb
    have hsum : |(t.map fun p => p.1.val * p.2.val).sum| ≤ (t.map fun p => |p.1.val * p.2.val|).sum := by
      have := abs_sum_le (t.map fun p => (p.1.val, p.2.val))
      simpa only [List.map_map, Function.comp_def] using this
    have hT0 : 0 ≤ (t.map fun p => |p.1.val * p.2.val|).sum := (abs_nonneg _).trans hsum
    obtain ⟨f1, f2⟩ := hl p (by simp)
    generalize ha : p.1.val = a at *
    generalize hb' : p.2.val = b at *
    have hs := productError_step hu hη t.length (T := (t.map fun p => |p.1.val * p.2.val|).sum) (abs_nonneg (a * b))
    have hn := productError_nonneg hu hη t.length hT0
    have h1 : 0 ≤ u * productError u η t.length (t.map fun p => |p.1.val * p.2.val|).sum := mul_nonneg hu hn
    have h2 : 0 ≤ u * (t.map fun p => |p.1.val * p.2.val|).sum := mul_nonneg hu hT0
    have h3 : 0 ≤ u * |a * b| := mul_nonneg hu (abs_nonneg _)
    have h4 : 0 ≤ u ^ 2 * |a * b| := mul_nonneg (by positivity) (abs_nonneg _)
    have h5 : 0 ≤ u * η := mul_nonneg hu hη
    have h6 := abs_nonneg (a * b)
    have hs1 := ih (fun q hq => hl q (List.mem_append_left _ hq)) (by linarith)
    obtain ⟨-, he⟩ := sum_fused h t hs1
    rw [List.foldl_append, List.foldl_cons, List.foldl_nil]
    generalize ht : t.foldl (fun (s : Fused rnd fuse) p => s + p.1 * p.2) 0 = s at *
    obtain ⟨r, hr, hre⟩ : ∃ r, (p.1 * p.2).operand s.hist = .fin r ∧ |r - a * b| ≤ u * |a * b| + η := by
      have e : (p.1 * p.2).operand s.hist = (if fuse s.hist p.1.hist p.2.hist then .fin else rnd) (a * b) := by
        show Fl.mul _ p.1.get p.2.get = _
        rw [f1, f2, ha, hb']
        rfl
      rw [e]
      split
      · exact ⟨_, rfl, by rw [sub_self, abs_zero]; linarith⟩
      · obtain ⟨r, hr⟩ := hM (a * b) (by linarith)
        exact ⟨r, hr, h.error _ _ hr⟩
    obtain ⟨q, hq⟩ := hM (s.val + r) (by
      have : |s.val + r| ≤ (|s.val - (t.map fun p => p.1.val * p.2.val).sum| + |r - a * b|) +
          (|(t.map fun p => p.1.val * p.2.val).sum| + |a * b|) := by
        rw [show s.val + r = ((s.val - (t.map fun p => p.1.val * p.2.val).sum) + (r - a * b)) +
          ((t.map fun p => p.1.val * p.2.val).sum + a * b) by ring]
        exact (abs_add_le _ _).trans (add_le_add (abs_add_le _ _) (abs_add_le _ _))
      linarith)
    refine (Fused.isFin_of (q := q) ?_).1
    show Fl.add rnd s.get ((p.1 * p.2).operand s.hist) = _
    rw [hs1, hr]
    exact hq

/-- C217: the error bound of inner products (C100) holds whichever products are fused with the sums. -/
theorem c217_dot (h : Rounds rnd u η) {n : Nat} (x y : Fin n → Fused rnd fuse) (z : Fused rnd fuse) (r : ℚ)
    (hz : dot (vec x) (vec y) = .ok z) (hr : z.get = .fin r) :
    ∃ p q : Fin n → ℚ, (∀ i, (x i).get = .fin (p i)) ∧ (∀ i, (y i).get = .fin (q i)) ∧
      |r - ∑ i, p i * q i| ≤ productError u η n (∑ i, |p i * q i|) := by
  unfold dot innerProduct at hz
  simp only [vec_length, beq_self_eq_true, assert_true, Out.ok_bind, Nat.le_refl, if_true, Out.ok.injEq] at hz
  have hf := Fused.isFin_of hr
  rw [← hz] at hf
  obtain ⟨h1, h2⟩ := sum_fused h _ hf.1
  have hl : (vec x).zip (vec y) = List.ofFn fun i => (x i, y i) := by
    apply List.ext_getElem
    · simp
    · intro i h1 h2
      simp [vec]
  rw [hf.2, hl, List.length_ofFn, List.map_ofFn, List.map_ofFn, List.sum_ofFn, List.sum_ofFn] at h2
  rw [hl] at h1
  have h3 : ∀ i, (x i).IsFin ∧ (y i).IsFin := fun i => h1 (x i, y i) (List.mem_ofFn.mpr ⟨i, rfl⟩)
  exact ⟨fun i => (x i).val, fun i => (y i).val, fun i => (h3 i).1, fun i => (h3 i).2, h2⟩

/-- C217: so does the bound for which it is finite. -/
theorem c217_finite (h : Rounds rnd u η) {M : ℚ} (hM : Range rnd M) {n : Nat} (x y : Fin n → Fused rnd fuse) (p q : Fin n → ℚ)
    (hx : ∀ i, (x i).get = .fin (p i)) (hy : ∀ i, (y i).get = .fin (q i))
    (hb : ∑ i, |p i * q i| + productError u η n (∑ i, |p i * q i|) ≤ M) :
    ∃ z r, dot (vec x) (vec y) = .ok z ∧ z.get = .fin r := by
  have hl : (vec x).zip (vec y) = List.ofFn fun i => (x i, y i) := by
    apply List.ext_getElem
    · simp
    · intro i h1 h2
      simp [vec]
  have hs : ((List.ofFn fun i => (x i, y i)).map fun p => |p.1.val * p.2.val|).sum = ∑ i, |p i * q i| := by
    rw [List.map_ofFn, List.sum_ofFn]
    refine Finset.sum_congr rfl fun i _ => ?_
    show |(x i).val * (y i).val| = _
    rw [(Fused.isFin_of (hx i)).2, (Fused.isFin_of (hy i)).2]
  have := sum_fused_finite h hM (List.ofFn fun i => (x i, y i)) (by
    intro e he
    rw [List.mem_ofFn] at he
    obtain ⟨i, rfl⟩ := he
    exact ⟨(Fused.isFin_of (hx i)).1, (Fused.isFin_of (hy i)).1⟩) (by rw [hs, List.length_ofFn]; exact hb)
  refine ⟨_, _, ?_, this⟩
  unfold dot innerProduct
  simp only [vec_length, beq_self_eq_true, assert_true, Out.ok_bind, Nat.le_refl, if_true, hl]

/-- C217: the same for the products of sparse matrices and vectors (C101). -/
theorem c217_sparse (h : Rounds rnd u η) (m : Sparse (Fused rnd fuse)) (hm : Built false m) (static : Bool)
    (x y : List (Fused rnd fuse)) (hy : m.mulVec static x = .ok y) (i : Nat) (z : Fused rnd fuse) (r : ℚ) (hz : y[i]? = some z)
    (hr : z.get = .fin r) :
    ∃ t : List (Nat × Fused rnd fuse × ℚ × ℚ), elements m i = .ok (t.map fun e => (e.1, e.2.1)) ∧
      (∀ e ∈ t, e.2.1.get = .fin e.2.2.1 ∧ ∃ w, x[e.1]? = some w ∧ w.get = .fin e.2.2.2) ∧
      |r - (t.map fun e => e.2.2.1 * e.2.2.2).sum| ≤ productError u η t.length (t.map fun e => |e.2.2.1 * e.2.2.2|).sum := by
  obtain ⟨L, h1, _, _, h4⟩ := Sparse.inv_built hm
  have hsz : m.colSize = x.length ∧ (static = false ∨ x.length = 0 ∨ L.length = x.length) := by
    by_contra hc
    rw [c36_sizes m x static (by
      rw [h1.sizeRow]
      by_cases h5 : m.colSize = x.length
      · right
        have h6 : ¬ (static = false ∨ x.length = 0 ∨ L.length = x.length) := fun h6 => hc ⟨h5, h6⟩
        push Not at h6
        exact ⟨by simpa using h6.1, h6.2⟩
      · exact .inl h5)] at hy
    cases hy
  rw [h1.mulVec (h4 rfl) hsz.1 hsz.2, Out.ok.injEq] at hy
  subst hy
  rw [List.getElem?_map, Option.map_eq_some_iff] at hz
  obtain ⟨i', hi', hz⟩ := hz
  obtain ⟨hi, rfl⟩ := List.getElem?_eq_some_iff.mp hi'
  rw [List.getElem_range] at hz
  rw [List.length_range] at hi
  have hf : Sparse.dotL (row L i) x = ((row L i).map fun e => (e.2, x.getD e.1 0)).foldl (fun s p => s + p.1 * p.2) 0 := by
    unfold Sparse.dotL
    rw [List.foldl_map]
  rw [hf] at hz
  have hF := Fused.isFin_of hr
  rw [← hz] at hF
  obtain ⟨h5, h6⟩ := sum_fused h _ hF.1
  rw [hF.2] at h6
  refine ⟨(row L i).map fun e => (e.1, e.2, e.2.val, (x.getD e.1 0).val), ?_, ?_, ?_⟩
  · rw [Sparse.elements_ok h1 hi, List.map_map, Out.ok.injEq]
    symm
    conv_rhs => rw [← List.map_id (row L i)]
    rfl
  · intro e hem
    rw [List.mem_map] at hem
    obtain ⟨e', hem, rfl⟩ := hem
    obtain ⟨f1, f2⟩ := h5 (e'.2, x.getD e'.1 0) (List.mem_map_of_mem hem)
    have hlt : e'.1 < x.length := by rw [← hsz.1]; exact h4 rfl i e' hem
    exact ⟨f1, x.getD e'.1 0, by simp [hlt], f2⟩
  · simpa only [List.map_map, Function.comp_def, List.length_map] using h6

/-! ### The direct solver -/

/-- C217: the calls of the direct solver return, also if elements are not finite. -/
theorem c217_returns (h : Rounds rnd u η) (h1 : u < 1) (pivot : Bool) (s : Lu (Fused rnd fuse)) {t : ℚ} (ht : 0 < t)
    (hs : s.tol.get = .fin t) {n : Nat} (A : Fin n → Fin n → Fused rnd fuse) (b : Fin n → Fused rnd fuse) (x0 : List (Fused rnd fuse)) :
    ∃ s' ok, factorise (Fused.arith rnd fuse) pivot s (mat A) = .ok (s', ok) ∧
      (ok = false → Lu.solve pivot s' x0 (some (vec b)) = .ok (x0, false, 0)) ∧
      (ok = true → ∃ x : Fin n → Fused rnd fuse, Lu.solve pivot s' x0 (some (vec b)) = .ok (vec x, true, 1)) := by
  obtain ⟨p, M, st, ok, e1, e2⟩ := factorise_fused h h1 pivot s ht hs A
  refine ⟨_, ok, e1, ?_, ?_⟩
  · rintro rfl
    unfold Lu.solve
    simp
  · rintro rfl
    obtain ⟨y, x, e3, -⟩ := solve_any pivot { s with factorised := true, lu := mat M, piv := st } M rfl rfl p (e2 rfl).pivots
      (fun hp => ((e2 rfl).none hp).2) b x0
    exact ⟨x, e3⟩

/-- C217: the bounds of the errors of the direct solver (C102) hold whichever products are fused with the subtractions. -/
theorem c217_backward (h : Rounds rnd u η) (h1 : u < 1) (pivot : Bool) (s s' : Lu (Fused rnd fuse)) {t : ℚ} (ht : 0 < t)
    (hs : s.tol.get = .fin t) {n : Nat} (A : Fin n → Fin n → Fused rnd fuse)
    (hf : factorise (Fused.arith rnd fuse) pivot s (mat A) = .ok (s', true)) (N : Fin n → Fin n → Fused rnd fuse)
    (hN : s'.lu = mat N) (M : Fin n → Fin n → ℚ) (hM : ∀ r c, (N r c).get = .fin (M r c)) :
    ∃ (p : Equiv.Perm (Fin n)) (B : Fin n → Fin n → ℚ), (pivot = false → p = 1) ∧ (∀ r c, (A r c).get = .fin (B r c)) ∧
      (∀ r c, |B (p r) c - ∑ k, lowerPart M r k * upperPart M k c| ≤
        relError u n * (∑ k, |lowerPart M r k| * |upperPart M k c|) + absError u η n * (1 + |M c c|)) ∧
      ∀ (b : Fin n → Fused rnd fuse) (x0 : List (Fused rnd fuse)) (X : Fin n → Fused rnd fuse) (x : Fin n → ℚ),
        Lu.solve pivot s' x0 (some (vec b)) = .ok (vec X, true, 1) → (∀ r, (X r).get = .fin (x r)) →
        ∃ d : Fin n → ℚ, (∀ r, (b r).get = .fin (d r)) ∧ ∀ r, |d (p r) - ∑ c, B (p r) c * x c| ≤
          (3 * relError u n + relError u n ^ 2) * (∑ k, |lowerPart M r k| * ∑ c, |upperPart M k c| * |x c|) +
          absError u η n * (1 + (1 + relError u n) * (∑ k, |lowerPart M r k| * (1 + |M k k|)) +
            ∑ c, (1 + |M c c|) * |x c|) := by
  have hu := h.u_nonneg
  have hη := h.η_nonneg
  obtain ⟨g1, -, -⟩ := gain_spec hu h1
  obtain ⟨p, M', st, ok, e1, e2⟩ := factorise_fused h h1 pivot s ht hs A
  rw [hf] at e1
  simp only [Out.ok.injEq, Prod.mk.injEq] at e1
  obtain ⟨rfl, rfl⟩ := e1
  have hR := e2 rfl
  obtain rfl : M' = N := mat_inj.mp hN
  have hNf : ∀ r c, (M' r c).IsFin := fun r c => (Fused.isFin_of (hM r c)).1
  have hMv : ∀ r c, (M' r c).val = M r c := fun r c => (Fused.isFin_of (hM r c)).2
  have hMM : fvals M' = M := by
    funext r c
    exact hMv r c
  obtain ⟨hA, hb⟩ := hR.close hNf
  have hd0 : ∀ k, (M' k k).val ≠ 0 := fun k => ne_zero_of_acceptedF ht hs (hR.diag k k.2) (hNf k k)
  have hb1 : ∀ r c, |(A (p r) c).val - ∑ k, lowerPart M r k * upperPart M k c| ≤
      relError u n * (∑ k, |lowerPart M r k| * |upperPart M k c|) + absError u η n * (1 + |M c c|) := by
    intro r c
    have := hb r c
    rw [if_pos c.2] at this
    have q1 : prod (fvals M') n r c = ∑ k, lowerPart M r k * upperPart M k c :=
      Finset.sum_congr rfl fun k _ => by rw [← lower_eq, ← upper_eq, hMM]
    have q2 : prod (fsizes M') n r c = ∑ k, |lowerPart M r k| * |upperPart M k c| := by
      have : fsizes M' = fun i j => |M i j| := by
        funext i j
        unfold fsizes
        rw [hMv]
      rw [this]
      exact Finset.sum_congr rfl fun k _ => by rw [← lower_abs, ← upper_abs]
    have q3 : fsizes M' c c = |M c c| := by unfold fsizes; rw [hMv]
    rw [q1, q2, q3] at this
    exact this
  refine ⟨p, fvals A, fun hp => (hR.none hp).2, hA, hb1, ?_⟩
  intro b x0 X x hX hx
  obtain ⟨y, x', e3, hy, hx'⟩ := solve_any pivot { s with factorised := true, lu := mat M', piv := st } M' rfl rfl p hR.pivots (fun hp => (hR.none hp).2) b x0
  rw [e3] at hX
  simp only [Out.ok.injEq, Prod.mk.injEq, and_true] at hX
  obtain rfl := vec_inj.mp hX
  have hxf : ∀ r, (x' r).IsFin := fun r => (Fused.isFin_of (hx r)).1
  have hxv : ∀ r, (x' r).val = x r := fun r => (Fused.isFin_of (hx r)).2
  -- the backward sweep
  have hback : ∀ r, (y r).IsFin ∧ |(y r).val - ∑ c, upperPart M r c * x c| ≤
      relError u n * (∑ c, |upperPart M r c| * |x c|) + absError u η n * (1 + |M r r|) := by
    intro r
    have hq := hxf r
    rw [hx' r] at hq
    obtain ⟨f1, f2⟩ := Fused.div_isFin (hNf r r) (hd0 r) hq
    rw [← hx' r, hxv, hMv] at f2
    obtain ⟨i1, -, i3⟩ := less_fused h h1 (y r) (fun c => M' r c) x' (r.1 + 1) (n - (r.1 + 1)) (by have := r.2; omega) f1
    refine ⟨i1, ?_⟩
    simp only [hMv, hxv] at i3
    have hd1 : M r r ≠ 0 := by rw [← hMv]; exact hd0 r
    have := quot_error h h1 (n - (r.1 + 1)) hd1 f2 i3 (psum_nonneg (fun c => abs_nonneg _) _ _)
    rw [sum_upper, mul_comm (M r r)]
    have q2 : ∑ c, |upperPart M r c| * |x c| = Lu.psum (fun c => |M r c * x c|) (r.1 + 1) (n - (r.1 + 1)) + |x r * M r r| := by
      have := sum_upper (fun r c => |M r c|) (fun c => |x c|) r
      rw [abs_mul, mul_comm |x r|]
      refine Eq.trans ?_ (this.trans ?_)
      · refine Finset.sum_congr rfl fun c _ => ?_
        unfold upperPart
        split
        · rfl
        · simp
      · simp only [abs_mul]
    rw [q2]
    have hT : 0 ≤ Lu.psum (fun c => |M r c * x c|) (r.1 + 1) (n - (r.1 + 1)) + |x r * M r r| :=
      add_nonneg (psum_nonneg (fun c => abs_nonneg _) _ _) (abs_nonneg _)
    have hk : n - (r.1 + 1) + 1 ≤ n := by have := r.2; omega
    have hg : gain u ^ (n - (r.1 + 1) + 1) ≤ gain u ^ n := pow_le_pow_right₀ g1 hk
    have t1 : (gain u ^ (n - (r.1 + 1) + 1) - 1) * (Lu.psum (fun c => |M r c * x c|) (r.1 + 1) (n - (r.1 + 1)) + |x r * M r r|) ≤
        (gain u ^ n - 1) * (Lu.psum (fun c => |M r c * x c|) (r.1 + 1) (n - (r.1 + 1)) + |x r * M r r|) :=
      mul_le_mul_of_nonneg_right (by linarith) hT
    have t2 : small u η (n - (r.1 + 1)) ≤ small u η n := small_mono hu h1 hη (by omega)
    have t3 := mul_le_mul_of_nonneg_right (pow_le_small hu h1 hη hk) (abs_nonneg (M r r))
    rw [relError_eq, absError_eq]
    linarith
  -- the forward sweep
  have hfor : ∀ r, (b (p r)).IsFin ∧ |(b (p r)).val - ∑ k, lowerPart M r k * (y k).val| ≤
      relError u n * (∑ k, |lowerPart M r k| * |(y k).val|) + absError u η n := by
    intro r
    obtain ⟨i1, -, i3⟩ := less_fused h h1 (b (p r)) (fun c => M' r c) (fun c => y c) 0 r.1
      (by have := r.2; omega) (by rw [← hy r]; exact (hback r).1)
    refine ⟨i1, ?_⟩
    simp only [← hy r, hMv] at i3
    rw [sum_lower, ← sub_sub]
    have q2 : ∑ k, |lowerPart M r k| * |(y k).val| = Lu.psum (fun c => |M r c * (y c).val|) 0 r.1 + |(y r).val| := by
      have := sum_lower (fun r c => |M r c|) (fun c => |(y c).val|) r
      refine Eq.trans ?_ (this.trans ?_)
      · refine Finset.sum_congr rfl fun c _ => ?_
        unfold lowerPart
        split
        · rfl
        · split <;> simp
      · simp only [abs_mul]
    rw [q2]
    have hT : 0 ≤ Lu.psum (fun c => |M r c * (y c).val|) 0 r.1 + |(y r).val| :=
      add_nonneg (psum_nonneg (fun c => abs_nonneg _) _ _) (abs_nonneg _)
    have hg : gain u ^ r.1 ≤ gain u ^ n := pow_le_pow_right₀ g1 r.2.le
    have t1 : (gain u ^ r.1 - 1) * (Lu.psum (fun c => |M r c * (y c).val|) 0 r.1 + |(y r).val|) ≤
        (gain u ^ n - 1) * (Lu.psum (fun c => |M r c * (y c).val|) 0 r.1 + |(y r).val|) :=
      mul_le_mul_of_nonneg_right (by linarith) hT
    have t2 : small u η r.1 ≤ small u η n := small_mono hu h1 hη r.2.le
    rw [relError_eq, absError_eq]
    linarith
  refine ⟨fun r => (b r).val, fun r => ?_, fun r => ?_⟩
  · have := (hfor (p.symm r)).1
    rw [Equiv.apply_symm_apply] at this
    exact this
  · have hε : 0 ≤ relError u n := by
      rw [relError_eq]
      have : 1 ≤ gain u ^ n := one_le_pow₀ g1
      linarith
    have := combine (B := fun r c => fvals A (p r) c) (L := lowerPart M) (U := upperPart M) (b := fun r => (b (p r)).val) (x := x)
      (y := fun k => (y k).val) hε (fun r c => by rw [upper_diag]; exact hb1 r c) (fun r => (hfor r).2)
      (fun k => by rw [upper_diag]; exact (hback k).2) r
    simpa only [upper_diag] using this

/-! ### What the numbers are -/

/-- C217: if nothing is fused then the numbers are those of C100 to C103. -/
theorem c217_same (hf : ∀ h k l, fuse h k l = false) (x y : Fused rnd fuse) :
    (x + y).get = Fl.add rnd x.get y.get ∧ (x - y).get = Fl.sub rnd x.get y.get ∧
    (x * y).get = Fl.mul rnd x.get y.get ∧ (x / y).get = Fl.div rnd x.get y.get := by
  have : ∀ h, y.operand h = y.get := by
    intro h
    cases y with
    | num => rfl
    | prod => simp [Fused.operand, Fused.get, hf]
  refine ⟨?_, ?_, rfl, rfl⟩
  · show Fl.add rnd x.get (y.operand x.hist) = _
    rw [this]
  · show Fl.sub rnd x.get (y.operand x.hist) = _
    rw [this]

/-- C217: if everything is fused then sums with products are rounded once. -/
theorem c217_fused (hf : ∀ h k l, fuse h k l = true) {s a b : Fused rnd fuse} {x y z : ℚ} (hs : s.get = .fin x) (ha : a.get = .fin y)
    (hb : b.get = .fin z) : (s + a * b).get = rnd (x + y * z) ∧ (s - a * b).get = rnd (x - y * z) := by
  have : (a * b).operand s.hist = .fin (y * z) := by
    show Fl.mul (if fuse s.hist a.hist b.hist then .fin else rnd) a.get b.get = _
    rw [hf, if_pos rfl, ha, hb]
    rfl
  constructor
  · show Fl.add rnd s.get _ = _
    rw [this, hs]
    rfl
  · show Fl.sub rnd s.get _ = _
    rw [this, hs, sub_eq_add_neg]
    rfl

/-! ### Examples -/

/-- An input with a label. -/
def inp {fuse : Hist → Hist → Hist → Bool} (n : Nat) (q : ℚ) : Fused binary64 fuse := .num (.fin q) (.input n)

/-- Fuses sums with products whose first factor has an odd label. -/
def odd : Hist → Hist → Hist → Bool
  | _, .input n, _ => n % 2 == 1
  | _, _, _ => true

/-- The inner product of two vectors, which depends on what is fused. -/
example : ((dot [inp 0 (-(2 ^ 54 + 2 ^ 28)), inp 1 (2 ^ 27 + 1)] [inp 2 1, inp 3 (2 ^ 27 + 1)] : Out (Fused binary64 fun _ _ _ => false)) >>=
      fun r => pure r.get) = .ok (.fin 0) ∧
    ((dot [inp 0 (-(2 ^ 54 + 2 ^ 28)), inp 1 (2 ^ 27 + 1)] [inp 2 1, inp 3 (2 ^ 27 + 1)] : Out (Fused binary64 odd)) >>=
      fun r => pure r.get) = .ok (.fin 1) := by decide +kernel

/-- The factors and the solution of a system, which depend on what is fused: the hypotheses of `c217_backward` hold. -/
example : (factorise (Fused.arith binary64 fun _ _ _ => true) true ⟨false, (Fused.arith binary64 _).tol, [], []⟩
        [[inp 0 1, inp 1 2], [inp 2 3, inp 3 5]] >>= fun r => do
      let s ← Lu.solve true r.1 [] (some [inp 4 1, inp 5 1])
      pure (r.1.lu.map fun l => l.map Fused.get, r.2, s.1.map Fused.get, s.2)) =
    .ok ([[.fin 3, .fin 5], [.fin (6004799503160661 / 2 ^ 54), .fin (6004799503160663 / 2 ^ 54)]], true,
      [.fin (-6755399441055743 / 2 ^ 51), .fin (9007199254740991 / 2 ^ 52)], true, 1) ∧
    (factorise (Fused.arith binary64 fun _ _ _ => false) true ⟨false, (Fused.arith binary64 _).tol, [], []⟩
        [[inp 0 1, inp 1 2], [inp 2 3, inp 3 5]] >>= fun r => do
      let s ← Lu.solve true r.1 [] (some [inp 4 1, inp 5 1])
      pure (r.1.lu.map fun l => l.map Fused.get, r.2, s.1.map Fused.get, s.2)) =
    .ok ([[.fin 3, .fin 5], [.fin (6004799503160661 / 2 ^ 54), .fin (750599937895083 / 2 ^ 51)]], true,
      [.fin (-6755399441055741 / 2 ^ 51), .fin (9007199254740989 / 2 ^ 52)], true, 1) := by
  constructor <;> decide +kernel

end Disa.Props
