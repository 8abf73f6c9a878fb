import Verif.Scalar.Sign
import Verif.Dense.GeometryFloat
import Verif.Dense.Vec
import Verif.Solver.SweepFloat

/-!
# Signs, with doubles

C131 and C132.  The numbers may be infinite or NaN.
-/

namespace Disa.Props

open Disa Spec Dense Sparse Num Dense.Rounded

/-- The vector with each sign changed. -/
def minus (v : List (Num binary64)) : List (Num binary64) := v.map (- ·)

@[simp] theorem minus_length (v : List (Num binary64)) : (minus v).length = v.length := by simp [minus]

theorem minus_minus (v : List (Num binary64)) : minus (minus v) = v := by
  unfold minus
  rw [List.map_map]
  conv_rhs => rw [← List.map_id v]
  exact List.map_congr_left fun a _ => Double.neg_neg a

theorem rd_minus (v : List (Num binary64)) (i : Nat) : rd (minus v) i = (- ·) <$> rd v i := by
  unfold rd minus
  rw [List.getElem?_map]
  cases v[i]? <;> rfl

theorem wr_minus (v : List (Num binary64)) (i : Nat) (a : Num binary64) : wr (minus v) i (-a) = minus <$> wr v i a := by
  unfold wr minus
  rw [List.length_map]
  split
  · simp [List.map_set]
  · rfl

/-- Loops whose bodies commute with a change of the state. -/
theorem loop_map {σ τ : Type} (φ : σ → τ) {f : Nat → σ → Out σ} {g : Nat → τ → Out τ} (h : ∀ i s, g i (φ s) = φ <$> f i s) (n : Nat)
    (s : σ) : loop n g (φ s) = φ <$> loop n f s := by
  induction n with
  | zero => rfl
  | succ n ih =>
    unfold loop
    rw [ih]
    cases loop n f s <;> first | rfl | exact h _ _

theorem foldl_minus (l : List (Num binary64 × Num binary64)) (a : Num binary64) :
    (l.map fun p => (-p.1, p.2)).foldl (fun s p => s + p.1 * p.2) (-a) = -l.foldl (fun s p => s + p.1 * p.2) a := by
  induction l generalizing a with
  | nil => rfl
  | cons p l ih =>
    rw [List.map_cons, List.foldl_cons, List.foldl_cons, ← ih, Double.neg_add, Double.neg_mul]

theorem foldl_swap (l : List (Num binary64 × Num binary64)) (a : Num binary64) :
    (l.map Prod.swap).foldl (fun s p => s + p.1 * p.2) a = l.foldl (fun s p => s + p.1 * p.2) a := by
  induction l generalizing a with
  | nil => rfl
  | cons p l ih =>
    rw [List.map_cons, List.foldl_cons, List.foldl_cons, ← ih, Prod.fst_swap, Prod.snd_swap, Double.mul_comm p.2]

theorem dot_comm (v w : List (Num binary64)) : dot v w = dot w v := by
  unfold dot innerProduct
  by_cases h : v.length = w.length
  · rw [h, if_pos le_rfl, if_pos le_rfl, ← foldl_swap, List.zip_swap]
  · rw [show (v.length == w.length) = false by simpa using h, show (w.length == v.length) = false by simpa using Ne.symm h]
    rfl

theorem dot_minus (v w : List (Num binary64)) : dot (minus v) w = (- ·) <$> dot v w := by
  unfold dot innerProduct
  rw [minus_length]
  by_cases h : v.length = w.length
  · rw [h]
    simp only [beq_self_eq_true, assert_true, Out.ok_bind, le_refl, if_true, Out.map_ok, Out.ok.injEq]
    have := foldl_minus (v.zip w) 0
    rw [Double.neg_zero] at this
    rw [← this]
    unfold minus
    rw [List.zip_map_left]
    rfl
  · rw [show (v.length == w.length) = false by simpa using h]
    rfl

/-- Products of vectors do not depend on their order; they change sign with each of the vectors. -/
theorem c131_dot (v w : List (Num binary64)) : dot v w = dot w v ∧ dot (minus v) w = (- ·) <$> dot v w ∧
    dot v (minus w) = (- ·) <$> dot v w ∧ dot (minus v) (minus w) = dot v w := by
  have h : ∀ v w : List (Num binary64), dot v (minus w) = (- ·) <$> dot v w := fun v w => by
    rw [dot_comm, dot_minus, dot_comm]
  refine ⟨dot_comm v w, dot_minus v w, h v w, ?_⟩
  rw [dot_minus, h]
  cases dot v w <;> first | rfl | skip
  simp only [Out.map_ok, Double.neg_neg]

theorem size_minus (a : Num binary64) : size (-a) = size a := by
  rcases a with _ | s | p
  · rfl
  · rfl
  · show Fl.abs (Fl.neg (.fin p)) = Fl.abs (.fin p)
    simp [Fl.neg, Fl.abs]

theorem square_minus (a : Num binary64) : -a * -a = a * a := by rw [Double.neg_mul, Double.mul_neg, Double.neg_neg]

theorem norm2_minus (sqrt : Num binary64 → Num binary64) (v : List (Num binary64)) : norm2 sqrt (minus v) = norm2 sqrt v := by
  unfold Rounded.norm2 minus
  rw [List.foldl_map]
  simp only [square_minus]

theorem maxElement_minus (v : List (Num binary64)) :
    maxElement (fun a b => Fl.lt (size a) (size b)) (minus v) = (- ·) <$> maxElement (fun a b => Fl.lt (size a) (size b)) v := by
  cases v with
  | nil => rfl
  | cons a l =>
    show Out.ok _ = Out.ok _
    congr 1
    induction l generalizing a with
    | nil => rfl
    | cons b l ih =>
      rw [List.map_cons, List.foldl_cons, List.foldl_cons, ← ih]
      congr 1
      show (if Fl.lt (size (-a)) (size (-b)) = true then -b else -a) = -(if Fl.lt (size a) (size b) = true then b else a)
      rw [size_minus, size_minus]
      split <;> rfl

/-- The norms of a vector do not depend on its sign. -/
theorem c131_norm (sqrt : Num binary64 → Num binary64) (v : List (Num binary64)) :
    normMax (minus v) = normMax v ∧ norm1 (minus v) = norm1 v ∧ norm2 sqrt (minus v) = norm2 sqrt v := by
  refine ⟨?_, ?_, norm2_minus sqrt v⟩
  · unfold Rounded.normMax
    rw [maxElement_minus]
    cases maxElement (fun a b => Fl.lt (size a) (size b)) v <;> first | rfl | skip
    simp [size_minus]
  · unfold Rounded.norm1 minus
    rw [List.foldl_map]
    simp only [size_minus]

theorem foldl_add_minus (v : List (Num binary64)) (a : Num binary64) : (minus v).foldl (· + ·) (-a) = -v.foldl (· + ·) a := by
  induction v generalizing a with
  | nil => rfl
  | cons b l ih =>
    show (minus l).foldl (· + ·) (-a + -b) = -l.foldl (· + ·) (a + b)
    rw [← Double.neg_add, ih]

theorem mulScalar_ok (v : List (Num binary64)) (x : Num binary64) : mulScalar v (.val x) = .ok (v.map (· * x)) := by
  obtain ⟨y, hy⟩ := vec_get v
  unfold mulScalar
  rw [hy, vec_length, scale_val]
  simp [vec, Function.comp_def]

theorem mulScalar_minus (v : List (Num binary64)) (x : Num binary64) :
    mulScalar (minus v) (.val x) = minus <$> mulScalar v (.val x) := by
  rw [mulScalar_ok, mulScalar_ok]
  simp [minus, Double.neg_mul]

theorem mulScalar_neg (v : List (Num binary64)) (x : Num binary64) : mulScalar v (.val (-x)) = minus <$> mulScalar v (.val x) := by
  rw [mulScalar_ok, mulScalar_ok]
  simp [minus, Double.mul_neg]

theorem unit_minus (sqrt : Num binary64 → Num binary64) (v : List (Num binary64)) :
    Rounded.unit sqrt (minus v) = minus <$> Rounded.unit sqrt v := by
  unfold Rounded.unit
  rw [norm2_minus, mulScalar_minus]

/-- The mean and the unit vector of the vector with each sign changed. -/
theorem c131_mean (s : Nat) (sqrt : Num binary64 → Num binary64) (v : List (Num binary64)) :
    Rounded.mean s (minus v) = (- ·) <$> Rounded.mean s v ∧ Rounded.unit sqrt (minus v) = minus <$> Rounded.unit sqrt v := by
  refine ⟨?_, unit_minus sqrt v⟩
  unfold Rounded.mean
  have h : (minus v).isEmpty = v.isEmpty := by cases v <;> rfl
  rw [minus_length, h]
  cases (s != 0 || !v.isEmpty)
  · rfl
  · have := foldl_add_minus v 0
    rw [Double.neg_zero] at this
    simp only [assert_true, Out.ok_bind, Out.pure_eq, Out.map_ok, Out.ok.injEq, this, Double.neg_div]

/-- Angles do not depend on the order of the vectors, nor on a change of sign of both. -/
theorem c131_angle (sqrt acos : Num binary64 → Num binary64) (radians : Bool) (v w : List (Num binary64)) :
    Rounded.angle sqrt acos radians v w = Rounded.angle sqrt acos radians w v ∧
    Rounded.angle sqrt acos radians (minus v) (minus w) = Rounded.angle sqrt acos radians v w := by
  have hu : ∀ v : List (Num binary64), ∃ u, Rounded.unit sqrt v = .ok u := fun v => by
    unfold Rounded.unit
    exact ⟨_, mulScalar_ok ..⟩
  obtain ⟨a, ha⟩ := hu v
  obtain ⟨b, hb⟩ := hu w
  constructor
  · unfold Rounded.angle
    rw [ha, hb]
    by_cases h : v.length = w.length
    · simp only [h, beq_self_eq_true, assert_true, Out.ok_bind, dot_comm a b]
    · rw [show (v.length == w.length) = false by simpa using h, show (w.length == v.length) = false by simpa using Ne.symm h]
      rfl
  · unfold Rounded.angle
    rw [unit_minus, unit_minus, ha, hb]
    simp only [minus_length, Out.map_ok, Out.ok_bind, (c131_dot a b).2.2.2]

theorem mapOut_minus {β : Type} (f g : β → Out (Num binary64)) (h : ∀ i, g i = (- ·) <$> f i) (l : List β) :
    mapOut g l = minus <$> mapOut f l := by
  induction l with
  | nil => rfl
  | cons a l ih =>
    unfold mapOut
    rw [h, ih]
    cases f a <;> first | rfl | skip
    cases mapOut f l <;> rfl

theorem vecOf_minus {s n : Nat} (f g : Nat → Out (Num binary64)) (h : ∀ i, g i = (- ·) <$> f i) :
    vecOf s g n = minus <$> vecOf s f n := by
  unfold vecOf
  cases (s == 0 || n == s)
  · rfl
  · exact mapOut_minus f g h _

theorem promote_comm {s t n : Nat} (hs : Sized s n) (ht : Sized t n) : promote s t = promote t s := by
  unfold Sized at hs ht
  unfold promote
  by_cases h1 : s = 0 <;> by_cases h2 : t = 0 <;> simp [h1, h2] <;> omega

theorem sub_swap {s t : Nat} (v w : List (Num binary64)) (hs : Sized s v.length) (ht : Sized t w.length) :
    Dense.sub t s w v = minus <$> Dense.sub s t v w := by
  unfold Dense.sub
  by_cases h : v.length = w.length
  · rw [h] at hs ⊢
    rw [promote_comm hs ht]
    simp only [beq_self_eq_true, assert_true, Out.ok_bind]
    unfold vecOf
    cases (promote t s == 0 || w.length == promote t s)
    · rfl
    · simp only [assert_true, Out.ok_bind]
      have : ∀ l : List Nat, (∀ i ∈ l, i < w.length) → mapOut (fun i => do
          let a ← rd w i
          let b ← rd v i
          pure (a - b)) l = minus <$> mapOut (fun i => do
          let a ← rd v i
          let b ← rd w i
          pure (a - b)) l := by
        intro l hl
        induction l with
        | nil => rfl
        | cons a l ih =>
          have ha := hl a (by simp)
          unfold mapOut
          rw [ih fun i hi => hl i (by simp [hi]), rd_ok ha, rd_ok (h ▸ ha)]
          cases mapOut (fun i => do
            let a ← rd v i
            let b ← rd w i
            pure (a - b)) l <;> first | rfl | skip
          simp [minus, Double.neg_sub]
      exact this _ fun i hi => List.mem_range.mp hi
  · rw [show (v.length == w.length) = false by simpa using h, show (w.length == v.length) = false by simpa using Ne.symm h]
    rfl

theorem vecList_minus (s : Nat) (l : List (Num binary64)) : vecList s (minus l) = minus <$> vecList s l := by
  unfold vecList
  rw [minus_length]
  cases (s == 0 || l.length == s) <;> rfl

/-- Differences and cross products change sign with the order of the vectors. -/
theorem c131_cross {s t : Nat} (v w : List (Num binary64)) (hs : Sized s v.length) (ht : Sized t w.length) :
    Dense.sub t s w v = minus <$> Dense.sub s t v w ∧ cross t s w v = minus <$> cross s t v w := by
  refine ⟨sub_swap v w hs ht, ?_⟩
  by_cases h : v.length = w.length
  · rw [h] at hs
    unfold cross
    rw [promote_comm hs ht, h]
    by_cases h2 : w.length = 2
    · obtain ⟨a, b, rfl⟩ := List.length_eq_two.mp h2
      obtain ⟨c, d, rfl⟩ := List.length_eq_two.mp (h.trans h2)
      show vecList _ [0, 0, a * d - b * c] = minus <$> vecList _ [0, 0, c * b - d * a]
      rw [← vecList_minus]
      simp only [minus, List.map_cons, List.map_nil, Double.neg_sub, Double.neg_zero, Double.mul_comm d a, Double.mul_comm b c]
    by_cases h3 : w.length = 3
    · obtain ⟨a, b, c, rfl⟩ := List.length_eq_three.mp h3
      obtain ⟨d, e, f, rfl⟩ := List.length_eq_three.mp (h.trans h3)
      show vecList _ [b * f - c * e, c * d - a * f, a * e - b * d] = minus <$> vecList _ [e * c - f * b, f * a - d * c, d * b - e * a]
      rw [← vecList_minus]
      simp only [minus, List.map_cons, List.map_nil, Double.neg_sub, Double.mul_comm f, Double.mul_comm d, Double.mul_comm e]
    · rw [show (w.length == 2 || w.length == 3) = false by simp [h2, h3], beq_self_eq_true]
      rfl
  · unfold cross
    rw [show (v.length == w.length) = false by simpa using h, show (w.length == v.length) = false by simpa using Ne.symm h]
    rfl

theorem sub_self_fin (q : ℚ) : (fin q : Num binary64) - fin q = 0 := by
  show binary64 (q + -q) = .fin 0
  rw [add_neg_cancel]
  decide +kernel

/-- The cross product of a vector with itself is zero if no product overflows. -/
theorem c131_self {s t : Nat} (hs : Sized s 3) (ht : Sized t 3) (x : Fin 3 → Num binary64)
    (h : ∀ i j, i ≠ j → ∃ q, x i * x j = fin q) : cross s t (vec x) (vec x) = .ok [0, 0, 0] := by
  have e : ∀ i j, i ≠ j → x i * x j - x j * x i = 0 := by
    intro i j hij
    obtain ⟨q, hq⟩ := h i j hij
    rw [Double.mul_comm (x j), hq, sub_self_fin]
  have h3 : cross s t (vec x) (vec x) = .ok [x 1 * x 2 - x 2 * x 1, x 2 * x 0 - x 0 * x 2, x 0 * x 1 - x 1 * x 0] := by
    rcases hs with rfl | rfl <;> rcases ht with rfl | rfl <;> rfl
  rw [h3, e 1 2 (by decide), e 2 0 (by decide), e 0 1 (by decide)]

/-- The products of the elements are finite. -/
example : ∀ i j, i ≠ j → ∃ q, (![fin (1 / 2), fin 3, fin (2 ^ 1000)] : Fin 3 → Num binary64) i *
    (![fin (1 / 2), fin 3, fin (2 ^ 1000)] : Fin 3 → Num binary64) j = fin q := by
  intro i j _
  refine ⟨(![1 / 2, 3, 2 ^ 1000] : Fin 3 → ℚ) i * (![1 / 2, 3, 2 ^ 1000] : Fin 3 → ℚ) j, ?_⟩
  fin_cases i <;> fin_cases j <;> first | contradiction | decide +kernel

theorem tangent_minus (sqrt : Num binary64 → Num binary64) (s t : Nat) (v w : List (Num binary64)) :
    Rounded.projectionTangent sqrt s t (minus v) w = minus <$> Rounded.projectionTangent sqrt s t v w := by
  unfold Rounded.projectionTangent
  rw [minus_length, dot_minus]
  cases assert (!Fl.eq (Rounded.norm2 sqrt w) (.fin 0)) <;> first | rfl | skip
  cases assert (v.length == w.length) <;> first | rfl | skip
  cases dot v w <;> first | rfl | skip
  cases vecOf (promote s t) (fun i => rd w i) w.length <;> first | rfl | skip
  exact mulScalar_neg _ _

theorem tangent_minus_right (sqrt : Num binary64 → Num binary64) (s t : Nat) (v w : List (Num binary64)) :
    Rounded.projectionTangent sqrt s t v (minus w) = Rounded.projectionTangent sqrt s t v w := by
  unfold Rounded.projectionTangent
  rw [minus_length, norm2_minus, (c131_dot v w).2.2.1, vecOf_minus (fun i => rd w i) (fun i => rd (minus w) i) (rd_minus w)]
  cases assert (!Fl.eq (Rounded.norm2 sqrt w) (.fin 0)) <;> first | rfl | skip
  cases assert (v.length == w.length) <;> first | rfl | skip
  cases dot v w <;> first | rfl | skip
  cases vecOf (promote s t) (fun i => rd w i) w.length <;> first | rfl | skip
  simp only [Out.map_ok, Out.ok_bind, smul]
  rw [mulScalar_neg, mulScalar_minus, mulScalar_ok]
  simp only [Out.map_ok, minus_minus]

theorem sub_minus (s t : Nat) (v w : List (Num binary64)) : Dense.sub s t (minus v) (minus w) = minus <$> Dense.sub s t v w := by
  unfold Dense.sub
  rw [minus_length, minus_length]
  cases assert (v.length == w.length) <;> first | rfl | skip
  apply vecOf_minus
  intro i
  simp only [rd_minus]
  cases rd v i <;> first | rfl | skip
  cases rd w i <;> first | rfl | skip
  simp only [Out.map_ok, Out.ok_bind, Out.pure_eq]
  rw [Double.sub_eq, ← Double.neg_add, ← Double.sub_eq]

/-- Projections change sign with the projected vector, and do not depend on the sign of the other one. -/
theorem c131_projection (sqrt : Num binary64 → Num binary64) (s t : Nat) (v w : List (Num binary64)) :
    Rounded.projectionTangent sqrt s t (minus v) w = minus <$> Rounded.projectionTangent sqrt s t v w ∧
    Rounded.projectionTangent sqrt s t v (minus w) = Rounded.projectionTangent sqrt s t v w ∧
    Rounded.projectionOrthogonal sqrt s t (minus v) w = minus <$> Rounded.projectionOrthogonal sqrt s t v w ∧
    Rounded.projectionOrthogonal sqrt s t v (minus w) = Rounded.projectionOrthogonal sqrt s t v w := by
  refine ⟨tangent_minus sqrt s t v w, tangent_minus_right sqrt s t v w, ?_, ?_⟩
  · unfold Rounded.projectionOrthogonal
    rw [minus_length, tangent_minus, vecOf_minus (fun i => rd v i) (fun i => rd (minus v) i) (rd_minus v)]
    cases assert (v.length == w.length) <;> first | rfl | skip
    cases vecOf (promote s t) (fun i => rd v i) w.length <;> first | rfl | skip
    cases Rounded.projectionTangent sqrt s t v w <;> first | rfl | skip
    exact sub_minus _ _ _ _
  · unfold Rounded.projectionOrthogonal
    rw [minus_length, tangent_minus_right]

theorem rowDot_minus (m : Sparse (Num binary64)) (x : List (Num binary64)) (i : Nat) :
    m.rowDot (minus x) i = (- ·) <$> m.rowDot x i := by
  unfold Sparse.rowDot
  cases m.rowBegin i <;> first | rfl | skip
  cases m.rowEnd i <;> first | rfl | skip
  simp only [Out.ok_bind]
  conv_lhs => rw [← Double.neg_zero]
  apply loop_map (fun a : Num binary64 => -a)
  intro k a
  cases m.valAt _ <;> first | rfl | skip
  cases m.colAt _ <;> first | rfl | skip
  simp only [Out.ok_bind, rd_minus]
  cases rd x _ <;> first | rfl | skip
  simp [Double.neg_add, Double.mul_neg]

/-- Products of matrices and vectors change sign with the vector. -/
theorem c131_matrix (static : Bool) (m : Sparse (Num binary64)) (r s : Nat) (d : List (List (Num binary64)))
    (x : List (Num binary64)) : m.mulVec static (minus x) = minus <$> m.mulVec static x ∧
    matVec r s d (minus x) = minus <$> matVec r s d x := by
  constructor
  rotate_left
  · unfold matVec
    rw [minus_length]
    cases assert (sizeColumn d == x.length) <;> first | rfl | skip
    apply vecOf_minus
    intro i
    cases rd d i <;> first | rfl | skip
    exact (c131_dot _ _).2.2.1
  unfold Sparse.mulVec
  rw [minus_length]
  cases (m.colSize == x.length) <;> first | rfl | skip
  cases (!static || x.length == 0 || m.sizeRow == x.length) <;> first | rfl | skip
  exact mapOut_minus _ _ (rowDot_minus m x) _

namespace SignFloat

open Iterative

variable {sqrt : Num binary64 → Num binary64}

theorem offRowDot_minus (m : Sparse (Num binary64)) (x : List (Num binary64)) (i : Nat) :
    offRowDot m (minus x) i = (- ·) <$> offRowDot m x i := by
  unfold offRowDot
  cases m.rowBegin i <;> first | rfl | skip
  cases m.rowEnd i <;> first | rfl | skip
  simp only [Out.ok_bind]
  conv_lhs => rw [← Double.neg_zero]
  apply loop_map (fun a : Num binary64 => -a)
  intro k a
  cases m.colAt _ <;> first | rfl | skip
  simp only [Out.ok_bind]
  split
  · cases m.valAt _ <;> first | rfl | skip
    simp only [Out.ok_bind, rd_minus]
    cases rd x _ <;> first | rfl | skip
    simp [Double.neg_add, Double.mul_neg]
  · rfl

theorem sweepRow_minus (m : Sparse (Num binary64)) (b : List (Num binary64)) (omega : Num binary64) (x : Option (List (Num binary64)))
    (i : Nat) (u : List (Num binary64)) :
    sweepRow (floats binary64 sqrt) m (minus b) omega (x.map minus) i (minus u) =
      minus <$> sweepRow (floats binary64 sqrt) m b omega x i u := by
  unfold sweepRow
  cases decide (i < m.sizeRow) <;> first | rfl | skip
  have h : (x.map minus).getD (minus u) = minus (x.getD u) := by cases x <;> rfl
  rw [h, offRowDot_minus, rd_minus, rd_minus]
  simp only [assert_true, Out.ok_bind]
  cases offRowDot m (x.getD u) i <;> first | rfl | skip
  cases rd b i <;> first | rfl | skip
  cases m.get i i <;> first | rfl | skip
  cases rd (x.getD u) i <;> first | rfl | skip
  simp only [Out.ok_bind, Out.map_ok]
  rw [← wr_minus, Double.neg_add, ← Double.neg_div, ← Double.mul_neg, ← Double.mul_neg, Double.sub_eq, ← Double.neg_add, ← Double.sub_eq]

theorem forwardSweep_minus (m : Sparse (Num binary64)) (b : List (Num binary64)) (omega : Num binary64)
    (x : Option (List (Num binary64))) (u : List (Num binary64)) :
    forwardSweep (floats binary64 sqrt) m (minus b) omega (x.map minus) (minus u) =
      minus <$> forwardSweep (floats binary64 sqrt) m b omega x u := by
  unfold forwardSweep
  exact loop_map minus (fun i s => sweepRow_minus m b omega x i s) _ _

theorem computeResidual_minus (m : Sparse (Num binary64)) (x b : List (Num binary64)) :
    computeResidual (floats binary64 sqrt) m (minus x) (minus b) = computeResidual (floats binary64 sqrt) m x b := by
  have h : residualBody (floats binary64 sqrt) m (minus x) (minus b) = residualBody (floats binary64 sqrt) m x b := by
    funext i st
    unfold residualBody
    rw [rowDot_minus, rd_minus]
    cases decide (i < m.sizeRow) <;> first | rfl | skip
    simp only [assert_true, Out.ok_bind]
    cases m.rowDot x i <;> first | rfl | skip
    cases rd b i <;> first | rfl | skip
    simp only [Out.ok_bind, Out.map_ok]
    rw [Double.sub_eq, ← Double.neg_add, ← Double.sub_eq, square_minus]
  unfold computeResidual
  rw [h, minus_length, minus_length]

/-- Both vectors of a solver with each sign changed. -/
def both (st : List (Num binary64) × List (Num binary64)) : List (Num binary64) × List (Num binary64) := (minus st.1, minus st.2)

theorem step_minus (k : Method) (s s' : FixedPoint (Num binary64)) (m : Sparse (Num binary64)) (b : List (Num binary64))
    (st : List (Num binary64) × List (Num binary64)) :
    Iterative.step (floats binary64 sqrt) k s' m (minus b) (both st) = both <$> Iterative.step (floats binary64 sqrt) k s m b st := by
  cases k <;> unfold Iterative.step both
  · have := forwardSweep_minus (sqrt := sqrt) m b (floats binary64 sqrt).one (some st.1) st.2
    simp only [Option.map_some] at this
    simp only [this]
    cases forwardSweep (floats binary64 sqrt) m b (floats binary64 sqrt).one (some st.1) st.2 <;> rfl
  · have := forwardSweep_minus (sqrt := sqrt) m b (floats binary64 sqrt).one none st.1
    simp only [Option.map_none] at this
    simp only [this]
    cases forwardSweep (floats binary64 sqrt) m b (floats binary64 sqrt).one none st.1 <;> rfl
  · have := forwardSweep_minus (sqrt := sqrt) m b (floats binary64 sqrt).threeHalves none st.1
    simp only [Option.map_none] at this
    simp only [this]
    cases forwardSweep (floats binary64 sqrt) m b (floats binary64 sqrt).threeHalves none st.1 <;> rfl

theorem whileFuel_map {σ τ : Type} (φ : σ → τ) {c : σ → Bool} {d : τ → Bool} {f : σ → Out σ} {g : τ → Out τ}
    (hc : ∀ s, d (φ s) = c s) (h : ∀ s, g (φ s) = φ <$> f s) (n : Nat) (s : σ) :
    whileFuel d g n (φ s) = φ <$> whileFuel c f n s := by
  induction n generalizing s with
  | zero =>
    unfold whileFuel
    rw [hc]
    cases c s <;> rfl
  | succ n ih =>
    unfold whileFuel
    rw [hc, h]
    cases c s <;> first | rfl | skip
    simp only [if_true]
    cases f s <;> first | rfl | skip
    exact ih _

end SignFloat

open Iterative SignFloat in
/-- A fixed point solver given the system, the starting values and its working vector with each sign changed takes the same number of
iterations, reports the same residuals and returns the solution with each sign changed. -/
theorem c132_fixed (sqrt : Num binary64 → Num binary64) (k : Method) (s : FixedPoint (Num binary64)) (m : Sparse (Num binary64))
    (x b : List (Num binary64)) (fuel : Nat) :
    solveSystem (floats binary64 sqrt) k { s with working := minus s.working } m (minus x) (minus b) fuel =
      (fun r : List (Num binary64) × Conv (Num binary64) (Num binary64) × FixedPoint (Num binary64) =>
        (minus r.1, r.2.1, { r.2.2 with working := minus r.2.2.working })) <$> solveSystem (floats binary64 sqrt) k s m x b fuel := by
  have hw : ∀ n, resizeList (minus s.working) n 0 = minus (resizeList s.working n 0) := by
    intro n
    simp [resizeList, minus, List.map_take, Double.neg_zero]
  have hi : ∀ w, iterate (floats binary64 sqrt) k { s with working := minus s.working } m (minus b) fuel
      ((minus x, minus w), Iterative.Conv.new (floats binary64 sqrt)) =
      (fun st : (List (Num binary64) × List (Num binary64)) × Conv (Num binary64) (Num binary64) => (both st.1, st.2)) <$>
        iterate (floats binary64 sqrt) k s m b fuel ((x, w), Iterative.Conv.new (floats binary64 sqrt)) := by
    intro w
    unfold iterate
    apply whileFuel_map (fun st : (List (Num binary64) × List (Num binary64)) × Conv (Num binary64) (Num binary64) => (both st.1, st.2))
      (s := ((x, w), Iterative.Conv.new (floats binary64 sqrt)))
    · intro st; rfl
    · intro st
      simp only [step_minus k s]
      cases Iterative.step (floats binary64 sqrt) k s m b st.1 with
      | ok v =>
        simp only [Out.map_ok, Out.ok_bind]
        have : update (floats binary64 sqrt) m (both v).1 (minus b) st.2 = update (floats binary64 sqrt) m v.1 b st.2 := by
          unfold update
          show (computeResidual (floats binary64 sqrt) m (minus v.1) (minus b) >>= _) = _
          rw [computeResidual_minus]
        rw [this]
        cases update (floats binary64 sqrt) m v.1 b st.2 <;> rfl
      | _ => rfl
  unfold solveSystem
  cases k <;> simp only [hw, hi] <;> cases iterate (floats binary64 sqrt) _ s m b fuel _ <;> rfl

theorem resize_minus (v : List (Num binary64)) (n : Nat) : resizeList (minus v) n 0 = minus (resizeList v n 0) := by
  simp [resizeList, minus, List.map_take, Double.neg_zero]

theorem forwardBody_minus (pivot : Bool) (s : Lu (Num binary64)) (b : Option (List (Num binary64))) (i : Nat) (x : List (Num binary64)) :
    Lu.forwardBody pivot s (b.map minus) i (minus x) = minus <$> Lu.forwardBody pivot s b i x := by
  have h : (b.map minus).getD (minus x) = minus (b.getD x) := by cases b <;> rfl
  unfold Lu.forwardBody
  cases (if pivot then rd s.piv i else pure i : Out Nat) <;> first | rfl | skip
  simp only [h, Out.ok_bind, rd_minus]
  cases rd (b.getD x) _ <;> first | rfl | skip
  simp only [Out.ok_bind, Out.map_ok, wr_minus]
  cases wr x i _ <;> first | rfl | skip
  simp only [Out.ok_bind, Out.map_ok]
  apply loop_map
  intro c x
  simp only [rd_minus]
  cases rd x i <;> first | rfl | skip
  cases rd2 s.lu i c <;> first | rfl | skip
  cases rd x c <;> first | rfl | skip
  simp only [Out.ok_bind, Out.map_ok]
  rw [← wr_minus, Double.mul_neg, Double.sub_eq, ← Double.neg_add, ← Double.sub_eq]

theorem backwardBody_minus (s : Lu (Num binary64)) (i : Nat) (x : List (Num binary64)) :
    Lu.backwardBody s i (minus x) = minus <$> Lu.backwardBody s i x := by
  unfold Lu.backwardBody
  rw [loop_map minus (f := fun c x => do
    let y ← rd x i
    let u ← rd2 s.lu i (i + 1 + c)
    let z ← rd x (i + 1 + c)
    wr x i (y - u * z))]
  · cases loop _ _ x <;> first | rfl | skip
    simp only [Out.ok_bind, Out.map_ok, rd_minus]
    cases rd _ i <;> first | rfl | skip
    cases rd2 s.lu i i <;> first | rfl | skip
    simp only [Out.ok_bind, Out.map_ok]
    rw [← wr_minus, Double.neg_div]
  · intro c x
    simp only [rd_minus]
    cases rd x i <;> first | rfl | skip
    cases rd2 s.lu i (i + 1 + c) <;> first | rfl | skip
    cases rd x (i + 1 + c) <;> first | rfl | skip
    simp only [Out.ok_bind, Out.map_ok]
    rw [← wr_minus, Double.mul_neg, Double.sub_eq, ← Double.neg_add, ← Double.sub_eq]

/-- A direct solver given the right hand side and the previous solution with each sign changed returns the solution with each sign
changed. -/
theorem c132_direct (pivot : Bool) (s : Lu (Num binary64)) (x : List (Num binary64)) (b : Option (List (Num binary64))) :
    Lu.solve pivot s (minus x) (b.map minus) =
      (fun r : List (Num binary64) × Bool × Nat => (minus r.1, r.2)) <$> Lu.solve pivot s x b := by
  have h : (b.map minus).getD (minus x) = minus (b.getD x) := by cases b <;> rfl
  unfold Lu.solve
  rw [h, minus_length]
  cases ((b.getD x).length == s.lu.length) <;> first | rfl | skip
  simp only [assert_true, Out.ok_bind]
  split
  · rfl
  · rw [resize_minus, loop_map minus (forwardBody_minus pivot s b)]
    cases loop s.lu.length (Lu.forwardBody pivot s b) _ <;> first | rfl | skip
    simp only [Out.map_ok, Out.ok_bind]
    rw [loop_map minus (fun k x => backwardBody_minus s (s.lu.length - 1 - k) x)]
    cases loop s.lu.length (fun k x => Lu.backwardBody s (s.lu.length - 1 - k) x) _ <;> rfl

/-- A vector with finite elements, and one with an infinite one. -/
example : cross 0 0 [fin 1, fin 2, fin 3] [fin 3, fin 5, fin 7] = .ok [fin (-1), fin 2, (fin (-1) : Num binary64)] ∧
    cross 0 0 [fin 3, fin 5, fin 7] [fin 1, fin 2, fin 3] = .ok [fin 1, fin (-2), (fin 1 : Num binary64)] ∧
    dot [fin 3, (show Num binary64 from .inf true)] [fin 1, fin 2] = .ok (show Num binary64 from .inf true) ∧
    dot (minus [fin 3, (show Num binary64 from .inf true)]) [fin 1, fin 2] = .ok (show Num binary64 from .inf false) := by
  decide +kernel

/-- The solvers solve `3 x = 1` and `3 x = -1`. -/
example : Lu.solve false ⟨true, fin 0, [[fin 3]], []⟩ [] (some [fin 1]) = .ok ([(fin (6004799503160661 / 2 ^ 54) : Num binary64)], true, 1) ∧
    Lu.solve false ⟨true, fin 0, [[fin 3]], []⟩ [] (some [fin (-1)]) =
      .ok ([(fin (-6004799503160661 / 2 ^ 54) : Num binary64)], true, 1) ∧
    (Iterative.solveSystem (floats binary64 root64) .jacobi ⟨⟨1, 9, fin 1⟩, [], fin 1⟩ ⟨[0, 1], [0], [fin 3], 1⟩ [fin 1] [fin 1] 9 >>=
      fun r => .ok (r.1, r.2.1.iteration)) = .ok ([fin (6004799503160661 / 2 ^ 54)], 1) := by
  decide +kernel

end Disa.Props
