import Verif.Dense.IntsScalar
import Verif.Props.Ints
import Verif.Scalar.Mono
import Verif.Scalar.Sign

/-!
# The vector operators on integers
-/

namespace Disa.Props

open Disa.Dense Disa.Spec Num

variable {t : IntTy}

/-- Integers that are numbers of the floating point type. -/
theorem double_int {z : Int} (h : |z| < 2 ^ 53) : binary64 z = .fin z := by
  rcases le_total 0 z with h0 | h0
  · obtain ⟨n, rfl⟩ := Int.eq_ofNat_of_zero_le h0
    have := binary64_nat (n := n) (by rw [abs_of_nonneg h0] at h; exact_mod_cast h)
    simpa using this
  · obtain ⟨n, hn⟩ := Int.eq_ofNat_of_zero_le (show 0 ≤ -z by omega)
    have h1 := binary64_nat (n := n) (by rw [abs_of_nonpos h0, hn] at h; exact_mod_cast h)
    have h2 := binary64_neg (n : ℚ)
    have h3 : (z : ℚ) = -(n : ℚ) := by
      have : z = -(n : Int) := by omega
      rw [this]; push_cast; rfl
    rw [h3, h2, h1]
    rfl

theorem toScalar_int {z : Int} (h : |z| < 2 ^ 53) : (Ints.toScalar z : Num binary64) = fin z := double_int h

theorem foldl_int (l : List Int) : ∀ s : Int, |s| + (l.map fun z => |z|).sum < 2 ^ 53 →
    l.foldl (fun a z => a + (Ints.toScalar z : Num binary64)) (fin s) = fin ((s + l.sum : Int) : ℚ) := by
  induction l with
  | nil => intro s _; simp
  | cons z l ih =>
    intro s h
    rw [List.map_cons, List.sum_cons] at h
    have hl : 0 ≤ (l.map fun z => |z|).sum := List.sum_nonneg (by simp)
    have hs := abs_nonneg s
    have hz := abs_nonneg z
    rw [List.foldl_cons, toScalar_int (by omega)]
    have e : (fin (s : ℚ) + fin (z : ℚ) : Num binary64) = fin ((s + z : Int) : ℚ) := by
      have := double_int (z := s + z) (by have := abs_add_le s z; omega)
      show binary64 ((s : ℚ) + z) = _
      rw [← Int.cast_add, this]
      rfl
    rw [e, ih (s + z) (by have := abs_add_le s z; omega), List.sum_cons, add_assoc]

theorem zip_vec {α β : Type} {n : Nat} (x : Fin n → α) (y : Fin n → β) : (vec x).zip (vec y) = vec fun i => (x i, y i) := by
  unfold vec
  apply List.ext_getElem
  · simp
  · intro i h1 h2
    simp

/-- The dot product of integers: what the arithmetic of the type makes of the products is summed up in floating point. -/
theorem dot_ints (t : IntTy) {n : Nat} (x y : Fin n → Int) :
    ((∀ i, InType t.promote (x i * y i)) → Ints.dot (rnd := binary64) t (vec x) (vec y) =
      .ok ((vec fun i => x i * y i).foldl (fun s z => s + Ints.toScalar z) 0)) ∧
    (t.promote.signed = true → (¬ ∀ i, InType t.promote (x i * y i)) → Ints.dot (rnd := binary64) t (vec x) (vec y) = .ub) ∧
    (t.promote.signed = false → Ints.dot (rnd := binary64) t (vec x) (vec y) =
      .ok ((vec fun i => t.promote.cast (x i * y i)).foldl (fun s z => s + Ints.toScalar z) 0)) := by
  have hb : 1 ≤ t.promote.bits := by
    unfold IntTy.promote
    split
    · decide
    · omega
  have hz : Ints.dot (rnd := binary64) t (vec x) (vec y) =
      (do let p ← mapOut (fun a => t.promote.arith (a.1 * a.2)) (vec fun i => (x i, y i)); pure (p.foldl (fun s z => s + Ints.toScalar z) 0)) := by
    unfold Ints.dot
    rw [vec_length, vec_length, zip_vec]
    simp only [beq_self_eq_true, assert_true, Out.ok_bind]
  rw [hz]
  refine ⟨fun h => ?_, fun hs h => ?_, fun hs => ?_⟩
  · have e : mapOut (fun a : Int × Int => t.promote.arith (a.1 * a.2)) (vec fun i => (x i, y i)) = .ok (vec fun i => x i * y i) :=
      mapOut_vec _ _ _ fun i => by
        unfold IntTy.arith
        have := h i
        unfold InType at this
        dsimp only
        rw [if_pos this, cast_self hb (h i), ite_self]
    rw [e]
    rfl
  · obtain ⟨i, hi⟩ := not_forall.mp h
    have e : mapOut (fun a : Int × Int => t.promote.arith (a.1 * a.2)) (vec fun i => (x i, y i)) = .ub := by
      refine mapOut_ub_of (fun a => ?_) (a := (x i, y i)) ?_ ?_
      · unfold IntTy.arith
        rw [hs, if_pos rfl]
        split
        · exact Or.inr ⟨_, rfl⟩
        · exact Or.inl rfl
      · unfold vec; exact List.mem_ofFn.mpr ⟨i, rfl⟩
      · unfold IntTy.arith
        rw [hs, if_pos rfl]
        exact if_neg hi
    rw [e]
    rfl
  · have e : mapOut (fun a : Int × Int => t.promote.arith (a.1 * a.2)) (vec fun i => (x i, y i)) =
        .ok (vec fun i => t.promote.cast (x i * y i)) :=
      mapOut_vec _ _ _ fun i => by
        unfold IntTy.arith
        rw [hs]
        rfl
    rw [e]
    rfl

theorem foldl_ints {n : Nat} (z : Fin n → Int) (h : ∑ i, |z i| < 2 ^ 53) :
    (vec z).foldl (fun s z => s + (Ints.toScalar z : Num binary64)) 0 = fin ((∑ i, z i : Int) : ℚ) := by
  have e : (0 : Num binary64) = fin ((0 : Int) : ℚ) := rfl
  rw [e, foldl_int]
  · unfold vec
    rw [List.sum_ofFn, zero_add]
  · unfold vec
    rw [List.map_ofFn, List.sum_ofFn]
    simpa using h

/-- C160, in full for the dot product: vectors of integers of the type, whose products and sums all are numbers of `double`. -/
def C160 : Prop :=
  ∀ (t : IntTy), 1 ≤ t.bits → ∀ {n : Nat} (x y : Fin n → Int), (∀ i, InType t (x i)) → (∀ i, InType t (y i)) →
    ∑ i, |x i * y i| < 2 ^ 53 → Ints.dot (rnd := binary64) t (vec x) (vec y) = .ok (fin ((∑ i, x i * y i : Int) : ℚ))

/-- C160 for `int`, where the product is undefined; for `unsigned int`, where it is `0`; and for `unsigned short`, whose products are
those of `int`. -/
theorem c160_violated : ¬ C160 ∧ Ints.dot (rnd := binary64) ⟨32, true⟩ [65536] [65536] = .ub ∧
    Ints.dot (rnd := binary64) ⟨32, false⟩ [65536] [65536] = .ok (fin 0) ∧
    Ints.dot (rnd := binary64) ⟨16, false⟩ [65535] [65535] = .ub := by
  refine ⟨fun h => ?_, by decide +kernel, by decide +kernel, by decide +kernel⟩
  have h1 := h ⟨32, true⟩ (by decide) (n := 1) (fun _ => 65536) (fun _ => 65536) (by decide) (by decide) (by decide)
  have h2 := (dot_ints ⟨32, true⟩ (n := 1) (fun _ => 65536) (fun _ => 65536)).2.1 rfl (by decide)
  rw [h1] at h2
  cases h2

/-- C160, the dot product exactly. -/
theorem c160_dot (t : IntTy) {n : Nat} (x y : Fin n → Int) :
    ((∀ i, InType t.promote (x i * y i)) → Ints.dot (rnd := binary64) t (vec x) (vec y) =
      .ok ((vec fun i => x i * y i).foldl (fun s z => s + Ints.toScalar z) 0)) ∧
    (t.promote.signed = true → (¬ ∀ i, InType t.promote (x i * y i)) → Ints.dot (rnd := binary64) t (vec x) (vec y) = .ub) ∧
    (t.promote.signed = false → Ints.dot (rnd := binary64) t (vec x) (vec y) =
      .ok ((vec fun i => t.promote.cast (x i * y i)).foldl (fun s z => s + Ints.toScalar z) 0)) :=
  dot_ints t x y

/-- C160 where it is true: the products are values of the type in which they are formed. -/
theorem c160_dot_partial (t : IntTy) {n : Nat} (x y : Fin n → Int) (hp : ∀ i, InType t.promote (x i * y i))
    (h : ∑ i, |x i * y i| < 2 ^ 53) : Ints.dot (rnd := binary64) t (vec x) (vec y) = .ok (fin ((∑ i, x i * y i : Int) : ℚ)) := by
  rw [(dot_ints t x y).1 hp, foldl_ints _ h]

theorem fromScalar_int {z : Int} (h : InType t z) : Ints.fromScalar t (fin z : Num binary64) = .ok z := by
  show (if t.min ≤ (z : ℚ).num.tdiv (z : ℚ).den ∧ (z : ℚ).num.tdiv (z : ℚ).den ≤ t.max then Out.ok ((z : ℚ).num.tdiv (z : ℚ).den) else .ub) = _
  have e : (z : ℚ).num.tdiv (z : ℚ).den = z := by simp
  rw [e]
  exact if_pos h

theorem fromScalar_fin {q : ℚ} {z : Int} (hq : q.num.tdiv q.den = z) (h : InType t z) : Ints.fromScalar t (fin q : Num binary64) = .ok z := by
  subst hq
  exact if_pos h

/-- C160, matrix times vector: right if the products are values of the type in which they are formed, the sums numbers of `double` and
the results values of the type. -/
theorem c160_apply_partial (t : IntTy) {row s n : Nat} (hs : Sized (promote row s) n) (A : Fin n → Fin n → Int) (x : Fin n → Int)
    (hp : ∀ i j, InType t.promote (A i j * x j)) (h : ∀ i, ∑ j, |A i j * x j| < 2 ^ 53) (hr : ∀ i, InType t (∑ j, A i j * x j)) :
    Ints.matVec binary64 t row s (mat A) (vec x) = .ok (vec fun i => ∑ j, A i j * x j) := by
  unfold Ints.matVec
  simp only [sizeColumn_mat (show n = 0 → n = 0 from id), vec_length, beq_self_eq_true, assert_true, Out.ok_bind]
  refine vecOf_ok hs _ fun i => ?_
  rw [rd_mat _ i.2, Out.ok_bind, c160_dot_partial t _ x (hp i) (h i), Out.ok_bind]
  exact fromScalar_int (hr i)

/-- C160, sizes: a dot product of vectors of different sizes and a product with a vector of another size than the rows exit. -/
theorem c160_sizes (t : IntTy) (row s : Nat) (m : List (List Int)) (v w : List Int) :
    (v.length ≠ w.length → Ints.dot (rnd := binary64) t v w = .exit 1) ∧
    (sizeColumn m ≠ v.length → Ints.matVec binary64 t row s m v = .exit 1) := by
  constructor
  · intro h
    unfold Ints.dot
    rw [show (v.length == w.length) = false by simpa using h]
    rfl
  · intro h
    unfold Ints.matVec
    rw [show (sizeColumn m == v.length) = false by simpa using h]
    rfl

theorem map_toScalar {n : Nat} (x : Fin n → Int) : (vec x).map (Ints.toScalar (rnd := binary64)) = vec fun i => Ints.toScalar (x i) := by
  unfold vec
  rw [List.map_ofFn]
  rfl

theorem abs_le_sum {n : Nat} (x : Fin n → Int) (i : Fin n) : |x i| ≤ ∑ i, |x i| :=
  Finset.single_le_sum (f := fun i => |x i|) (fun _ _ => abs_nonneg _) (Finset.mem_univ i)

/-- C160, the mean: the quotient of the exact sum, rounded once. -/
theorem c160_mean {s n : Nat} (h0 : n ≠ 0) (hn : n < 2 ^ 53) (x : Fin n → Int) (h : ∑ i, |x i| < 2 ^ 53) :
    Ints.mean (rnd := binary64) s (vec x) = .ok (show Num binary64 from binary64 (((∑ i, x i : Int) : ℚ) / n)) := by
  unfold Ints.mean Rounded.mean
  have he : ((vec x).map (Ints.toScalar (rnd := binary64))).isEmpty = false := by
    rw [map_toScalar, List.isEmpty_eq_false_iff_exists_mem]
    exact ⟨Ints.toScalar (x ⟨0, by omega⟩), by unfold vec; exact List.mem_ofFn.mpr ⟨⟨0, by omega⟩, rfl⟩⟩
  rw [he]
  simp only [Bool.not_false, Bool.or_true, assert_true, Out.ok_bind, List.foldl_map]
  rw [foldl_ints x h, List.length_map, vec_length]
  have hN : (Rounded.ofNat n : Num binary64) = fin (n : ℚ) := binary64_nat hn
  rw [hN]
  show Out.ok (Fl.div binary64 (.fin _) (.fin _)) = _
  have hq : (n : ℚ) ≠ 0 := by exact_mod_cast h0
  have e : ∀ p q : ℚ, q ≠ 0 → Fl.div binary64 (.fin p) (.fin q) = binary64 (p / q) := fun p q hq => by
    show (if q = 0 then _ else binary64 (p / q)) = _
    rw [if_neg hq]
  rw [e _ _ hq]
  rfl

/-- C160, the sum of the absolute values. -/
theorem c160_norm1 {n : Nat} (x : Fin n → Int) (h : ∑ i, |x i| < 2 ^ 53) :
    Ints.norm1 (rnd := binary64) (vec x) = fin ((∑ i, |x i| : Int) : ℚ) := by
  unfold Ints.norm1 Rounded.norm1
  rw [List.foldl_map]
  have e : (vec x).foldl (fun a b => a + Rounded.size (Ints.toScalar b : Num binary64)) 0 =
      (vec fun i => |x i|).foldl (fun s z => s + (Ints.toScalar z : Num binary64)) 0 := by
    have : (vec fun i => |x i|) = (vec x).map fun z => |z| := by unfold vec; rw [List.map_ofFn]; rfl
    rw [this, List.foldl_map]
    have key : ∀ (l : List Int) (s : Num binary64), (∀ z ∈ l, |z| < 2 ^ 53) →
        l.foldl (fun a b => a + Rounded.size (Ints.toScalar b : Num binary64)) s = l.foldl (fun a b => a + (Ints.toScalar |b| : Num binary64)) s := by
      intro l
      induction l with
      | nil => intro s _; rfl
      | cons z l ih =>
        intro s hl
        have hz := hl z (by simp)
        have : Rounded.size (Ints.toScalar z : Num binary64) = Ints.toScalar |z| := by
          rw [toScalar_int hz, toScalar_int (by rw [abs_abs]; exact hz)]
          show Fl.fin |(z : ℚ)| = Fl.fin _
          push_cast
          rfl
        rw [List.foldl_cons, List.foldl_cons, this]
        exact ih _ fun z hz => hl z (by simp [hz])
    apply key
    intro z hz
    unfold vec at hz
    obtain ⟨i, rfl⟩ := List.mem_ofFn.mp hz
    exact lt_of_le_of_lt (abs_le_sum x i) h
  rw [e, foldl_ints _ (by simpa using h)]

/-- C160, the Euclidean norm: the root of the exact sum of the squares. -/
theorem c160_norm2 (sqrt : Num binary64 → Num binary64) {n : Nat} (x : Fin n → Int) (h : ∑ i, x i * x i < 2 ^ 53) :
    Ints.norm2 sqrt (vec x) = sqrt (fin ((∑ i, x i * x i : Int) : ℚ)) := by
  unfold Ints.norm2 Rounded.norm2
  rw [List.foldl_map]
  congr 1
  have e : (vec x).foldl (fun a b => a + (Ints.toScalar b : Num binary64) * Ints.toScalar b) 0 =
      (vec fun i => x i * x i).foldl (fun s z => s + (Ints.toScalar z : Num binary64)) 0 := by
    have : (vec fun i => x i * x i) = (vec x).map fun z => z * z := by unfold vec; rw [List.map_ofFn]; rfl
    rw [this, List.foldl_map]
    have key : ∀ (l : List Int) (s : Num binary64), (∀ z ∈ l, z * z < 2 ^ 53) →
        l.foldl (fun a b => a + (Ints.toScalar b : Num binary64) * Ints.toScalar b) s =
          l.foldl (fun a b => a + (Ints.toScalar (b * b) : Num binary64)) s := by
      intro l
      induction l with
      | nil => intro s _; rfl
      | cons z l ih =>
        intro s hl
        have hz := hl z (by simp)
        have h1 : |z| < 2 ^ 53 := by
          by_contra hc
          have h2 : (2 : Int) ^ 53 ≤ |z| := by omega
          have h3 := abs_mul_abs_self z
          nlinarith
        have : (Ints.toScalar z : Num binary64) * Ints.toScalar z = Ints.toScalar (z * z) := by
          rw [toScalar_int h1, toScalar_int (z := z * z) (by rw [abs_mul_self]; exact hz)]
          show binary64 ((z : ℚ) * z) = _
          rw [← Int.cast_mul]
          exact double_int (by rw [abs_mul_self]; exact hz)
        rw [List.foldl_cons, List.foldl_cons, this]
        exact ih _ fun z hz => hl z (by simp [hz])
    apply key
    intro z hz
    unfold vec at hz
    obtain ⟨i, rfl⟩ := List.mem_ofFn.mp hz
    exact lt_of_le_of_lt (Finset.single_le_sum (f := fun i => x i * x i) (fun _ _ => mul_self_nonneg _) (Finset.mem_univ i)) h
  rw [e, foldl_ints _ (by simpa [abs_mul_self] using h)]

/-! ### The largest element -/

theorem maxElement_key {α : Type} (k : α → ℚ) (l : List α) : ∀ a, ∃ m ∈ a :: l, (∀ x ∈ a :: l, k x ≤ k m) ∧
    maxElement (fun a b => decide (k a < k b)) (a :: l) = .ok m := by
  unfold maxElement
  induction l with
  | nil => exact fun a => ⟨a, by simp, by simp, rfl⟩
  | cons b l ih =>
    intro a
    dsimp only
    rw [List.foldl_cons]
    by_cases h : k a < k b
    · rw [if_pos (by simpa using h)]
      obtain ⟨m, h1, h2, h3⟩ := ih b
      refine ⟨m, List.mem_cons_of_mem _ h1, ?_, h3⟩
      intro q hq
      rcases List.mem_cons.mp hq with rfl | hq
      · exact h.le.trans (h2 b (by simp))
      · exact h2 q hq
    · rw [if_neg (by simpa using h)]
      obtain ⟨m, h1, h2, h3⟩ := ih a
      refine ⟨m, ?_, ?_, h3⟩
      · rcases List.mem_cons.mp h1 with rfl | h1
        · simp
        · simp [h1]
      · intro q hq
        rcases List.mem_cons.mp hq with rfl | hq
        · exact h2 q (by simp)
        · rcases List.mem_cons.mp hq with rfl | hq
          · exact (not_lt.mp h).trans (h2 a (by simp))
          · exact h2 q (by simp [hq])

theorem maxElement_congr {α : Type} {f g : α → α → Bool} (l : List α) : ∀ a, (∀ x ∈ a :: l, ∀ y ∈ a :: l, f x y = g x y) →
    maxElement f (a :: l) = maxElement g (a :: l) := by
  unfold maxElement
  induction l with
  | nil => exact fun a _ => rfl
  | cons b l ih =>
    intro a h
    dsimp only
    rw [List.foldl_cons, List.foldl_cons, h a (by simp) b (by simp)]
    refine ih _ fun x hx y hy => h x ?_ y ?_
    · split at hx <;> simp only [List.mem_cons] at hx ⊢ <;> tauto
    · split at hy <;> simp only [List.mem_cons] at hy ⊢ <;> tauto

theorem finite_int {z : Int} (h : |z| ≤ 2 ^ 64) : binary64 z = .fin (near64 z) := by
  have h1 : near64 (2 ^ 64) = 2 ^ 64 := by decide +kernel
  have h2 := near64_odd (2 ^ 64)
  obtain ⟨h3, h4⟩ := abs_le.mp h
  have h5 : near64 z ≤ 2 ^ 64 := by
    rw [← h1]
    exact near64_mono (by exact_mod_cast h4)
  have h6 : -2 ^ 64 ≤ near64 z := by
    rw [h1] at h2
    rw [← h2]
    exact near64_mono (by exact_mod_cast h3)
  rw [binary64_near, if_pos]
  rw [abs_lt]
  have h7 : (2 : ℚ) ^ 64 < 2 ^ 1024 := pow_lt_pow_right₀ (by norm_num) (by norm_num)
  exact ⟨lt_of_lt_of_le (neg_lt_neg h7) h6, lt_of_le_of_lt h5 h7⟩

theorem near64_abs (q : ℚ) : |near64 q| = near64 |q| := by
  rcases le_total 0 q with h | h
  · rw [abs_of_nonneg h, abs_of_nonneg (near64_nonneg h)]
  · rw [abs_of_nonpos h, abs_of_nonpos (near64_nonpos h), near64_odd]

/-- The element that `lp_norm<0>` takes the absolute value of. -/
theorem max_found {n : Nat} (h0 : 0 < n) (x : Fin n → Int) (hx : ∀ i, |x i| ≤ 2 ^ 64) : ∃ i, (∀ j, near64 |(x j : ℚ)| ≤ near64 |(x i : ℚ)|) ∧
    maxElement (fun a b => Fl.lt (Rounded.size (Ints.toScalar (rnd := binary64) a)) (Rounded.size (Ints.toScalar (rnd := binary64) b))) (vec x) =
      .ok (x i) := by
  obtain ⟨k, rfl⟩ : ∃ k, n = k + 1 := ⟨n - 1, by omega⟩
  have hm : ∀ z ∈ vec x, |z| ≤ 2 ^ 64 := by
    intro z hz
    unfold vec at hz
    obtain ⟨i, rfl⟩ := List.mem_ofFn.mp hz
    exact hx i
  have hv : vec x = x 0 :: List.ofFn fun i : Fin k => x i.succ := by
    unfold vec
    rw [List.ofFn_succ]
  rw [hv] at hm
  have hc := maxElement_congr (f := fun a b : Int => Fl.lt (Rounded.size (Ints.toScalar (rnd := binary64) a)) (Rounded.size (Ints.toScalar (rnd := binary64) b)))
    (g := fun a b : Int => decide (|near64 (a : ℚ)| < |near64 (b : ℚ)|)) (List.ofFn fun i : Fin k => x i.succ) (x 0) (by
      intro a ha b hb
      have h1 : (Ints.toScalar a : Num binary64) = fin (near64 a) := finite_int (hm a ha)
      have h2 : (Ints.toScalar b : Num binary64) = fin (near64 b) := finite_int (hm b hb)
      rw [h1, h2]
      rfl)
  obtain ⟨m, h1, h2, h3⟩ := maxElement_key (fun z : Int => |near64 (z : ℚ)|) (List.ofFn fun i : Fin k => x i.succ) (x 0)
  rw [← hv] at h1 h2
  unfold vec at h1
  obtain ⟨i, rfl⟩ := List.mem_ofFn.mp h1
  refine ⟨i, fun j => ?_, ?_⟩
  · rw [← near64_abs, ← near64_abs]
    exact h2 (x j) (by unfold vec; exact List.mem_ofFn.mpr ⟨j, rfl⟩)
  · rw [hv, hc, h3]

/-- C160, the largest absolute value, rounded, if all absolute values are values of the type in which they are formed. -/
theorem c160_max_partial (t : IntTy) (ht : t.promote.signed = true) {n : Nat} (h0 : 0 < n) (x : Fin n → Int) (hx : ∀ i, |x i| ≤ 2 ^ 64)
    (h : ∀ i, InType t.promote |x i|) : ∃ i, (∀ j, |x j| ≤ |x i|) ∧
    Ints.normMax (rnd := binary64) t (vec x) = .ok (show Num binary64 from binary64 ((|x i| : Int) : ℚ)) := by
  obtain ⟨m, h1, h2⟩ := max_found h0 x hx
  obtain ⟨M, -, hM⟩ := Finset.exists_max_image Finset.univ (fun i => |x i|) ⟨⟨0, h0⟩, Finset.mem_univ _⟩
  refine ⟨M, fun j => hM j (Finset.mem_univ j), ?_⟩
  unfold Ints.normMax
  rw [h2, Out.ok_bind]
  have ha : t.promote.arith |x m| = .ok |x m| := by
    unfold IntTy.arith
    rw [ht, if_pos rfl]
    exact if_pos (h m)
  rw [ha, Out.ok_bind]
  have e : near64 ((|x m| : Int) : ℚ) = near64 ((|x M| : Int) : ℚ) := by
    push_cast
    refine le_antisymm (near64_mono ?_) (h1 M)
    have := hM m (Finset.mem_univ m)
    exact_mod_cast this
  have e1 : (Ints.toScalar |x m| : Num binary64) = fin (near64 ((|x m| : Int) : ℚ)) := finite_int (by rw [abs_abs]; exact hx m)
  have e2 := finite_int (z := |x M|) (by rw [abs_abs]; exact hx M)
  rw [e1, e, e2]
  rfl

/-- C160: the absolute value of the least value is undefined. -/
theorem c160_max_least (t : IntTy) (ht : t.signed = true) (hb : 32 ≤ t.bits ∧ t.bits ≤ 53) {n : Nat} (x : Fin n → Int) (hx : ∀ i, InType t (x i))
    (h : ∃ i, x i = t.min) : Ints.normMax (rnd := binary64) t (vec x) = .ub := by
  obtain ⟨i, hi⟩ := h
  have hmin : t.min = - 2 ^ (t.bits - 1) := by unfold IntTy.min; rw [ht, if_pos rfl]
  have hmax : t.max = 2 ^ (t.bits - 1) - 1 := by unfold IntTy.max; rw [ht, if_pos rfl]
  have hpos : (0 : Int) < 2 ^ (t.bits - 1) := by positivity
  have hle : (2 : Int) ^ (t.bits - 1) ≤ 2 ^ 52 := pow_le_pow_right₀ (by norm_num) (by omega)
  have hp : t.promote = t := by unfold IntTy.promote; rw [if_neg (by omega)]
  have hab : ∀ j, |x j| ≤ 2 ^ (t.bits - 1) := by
    intro j
    have := hx j
    unfold InType at this
    rw [abs_le]
    omega
  obtain ⟨m, h1, h2⟩ := max_found (show 0 < n by have := i.2; omega) x fun j => le_trans (hab j) (by omega)
  have ex : ∀ j, near64 |(x j : ℚ)| = |(x j : ℚ)| := by
    intro j
    have := double_int (z := |x j|) (by rw [abs_abs]; have := hab j; omega)
    rw [binary64_near] at this
    split at this
    · simpa using this
    · cases this
  have h3 := h1 i
  rw [ex, ex] at h3
  have h4 : |x i| ≤ |x m| := by exact_mod_cast h3
  have h5 : x m = t.min := by
    rw [hi, hmin, abs_neg, abs_of_pos hpos] at h4
    have := hx m
    unfold InType at this
    rcases abs_cases (x m) with h | h <;> omega
  unfold Ints.normMax
  rw [h2, Out.ok_bind, h5, hp]
  have : t.arith |t.min| = .ub := by
    unfold IntTy.arith
    rw [ht, if_pos rfl, if_neg]
    rw [hmin, abs_neg, abs_of_pos hpos, hmax]
    omega
  rw [this]
  rfl

/-- The hypotheses: vectors of `int`, and the least value of `int`. -/
example : Ints.dot (rnd := binary64) ⟨32, true⟩ [3, -4] [5, 6] = .ok (fin (-9)) ∧
    Ints.mean (rnd := binary64) 0 [3, -4, 2] = .ok (fin (6004799503160661 / 2 ^ 54)) ∧
    Ints.norm1 (rnd := binary64) [3, -4] = fin 7 ∧ Ints.norm2 root64 [3, -4] = fin 5 ∧
    Ints.normMax (rnd := binary64) ⟨32, true⟩ [3, -4] = .ok (fin 4) ∧
    Ints.normMax (rnd := binary64) ⟨32, true⟩ [3, -2147483648] = .ub ∧
    Ints.normMax (rnd := binary64) ⟨16, true⟩ [3, -32768] = .ok (fin 32768) ∧
    Ints.matVec binary64 ⟨32, true⟩ 0 0 [[1, 2], [3, -4]] [5, 6] = .ok [17, -9] := by
  decide +kernel

/-! ### Unit vectors -/

/-- A sum that is at least `k`, as far as that is less than two. -/
def AtLeast (k : Int) (a : Num binary64) : Prop := a = Fl.inf false ∨ ∃ q : ℚ, a = Fl.fin q ∧ ((Min.min k 2 : Int) : ℚ) ≤ q

theorem rounded_atLeast {m : Int} (hm : |m| ≤ 2) {q : ℚ} (h0 : 0 ≤ q) (h : (m : ℚ) ≤ q) :
    binary64 q = Fl.inf false ∨ ∃ r : ℚ, binary64 q = Fl.fin r ∧ (m : ℚ) ≤ r := by
  cases hq : binary64 q with
  | fin r => exact Or.inr ⟨r, rfl, (binary64_between hq (double_int (by omega))).1 h⟩
  | inf s =>
    left
    rw [binary64_near] at hq
    split at hq
    · cases hq
    · rw [← hq, decide_eq_false (not_lt.mpr h0)]
  | nan =>
    rw [binary64_near] at hq
    split at hq <;> cases hq

theorem square_atLeast {z : Int} (hz : |z| ≤ 2 ^ 64) : AtLeast (z * z) ((Ints.toScalar z : Num binary64) * Ints.toScalar z) := by
  have e : (Ints.toScalar z : Num binary64) = fin (near64 z) := finite_int hz
  rw [e]
  have h1 : (((Min.min |z| 2 : Int) : ℚ)) ≤ |near64 z| := by
    rw [near64_abs]
    have h2 : near64 ((Min.min |z| 2 : Int) : ℚ) = ((Min.min |z| 2 : Int) : ℚ) := by
      have h3 := abs_nonneg z
      have := double_int (z := Min.min |z| 2) (by rw [abs_of_nonneg (by omega)]; omega)
      rw [binary64_near] at this
      split at this
      · simpa using this
      · cases this
    rw [← h2]
    refine near64_mono ?_
    have : Min.min |z| 2 ≤ |z| := min_le_left _ _
    exact_mod_cast this
  have h3 : ((Min.min (z * z) 2 : Int) : ℚ) ≤ near64 z * near64 z := by
    rw [← abs_mul_abs_self (near64 z)]
    have h4 : (0 : ℚ) ≤ ((Min.min |z| 2 : Int) : ℚ) := by
      have := abs_nonneg z
      exact_mod_cast (show 0 ≤ Min.min |z| 2 by omega)
    have h5 : Min.min (z * z) 2 ≤ Min.min |z| 2 * Min.min |z| 2 := by
      rw [← abs_mul_abs_self z]
      have := abs_nonneg z
      rcases le_total |z| 2 with h | h
      · rw [min_eq_left h]
        exact min_le_left _ _
      · rw [min_eq_right h]
        exact le_trans (min_le_right _ _) (by norm_num)
    have h6 : ((Min.min (z * z) 2 : Int) : ℚ) ≤ ((Min.min |z| 2 : Int) : ℚ) * ((Min.min |z| 2 : Int) : ℚ) := by exact_mod_cast h5
    exact le_trans h6 (mul_le_mul h1 h1 h4 (le_trans h4 h1))
  have h7 := mul_self_nonneg z
  rcases rounded_atLeast (m := Min.min (z * z) 2) (by rw [abs_of_nonneg (by omega)]; omega) (mul_self_nonneg (near64 z)) h3 with h | ⟨r, h, h8⟩
  · exact Or.inl h
  · exact Or.inr ⟨r, h, h8⟩

theorem add_atLeast {k l : Int} (hk : 0 ≤ k) (hl : 0 ≤ l) {a b : Num binary64} (ha : AtLeast k a) (hb : AtLeast l b) : AtLeast (k + l) (a + b) := by
  rcases ha with rfl | ⟨p, rfl, hp⟩ <;> rcases hb with rfl | ⟨q, rfl, hq⟩
  · exact Or.inl rfl
  · exact Or.inl rfl
  · exact Or.inl rfl
  · have h1 : ((Min.min (k + l) 2 : Int) : ℚ) ≤ p + q := by
      have : Min.min (k + l) 2 ≤ Min.min k 2 + Min.min l 2 := by omega
      have h2 : ((Min.min (k + l) 2 : Int) : ℚ) ≤ ((Min.min k 2 : Int) : ℚ) + ((Min.min l 2 : Int) : ℚ) := by exact_mod_cast this
      linarith
    have h0 : (0 : ℚ) ≤ ((Min.min (k + l) 2 : Int) : ℚ) := by exact_mod_cast (show 0 ≤ Min.min (k + l) 2 by omega)
    rcases rounded_atLeast (m := Min.min (k + l) 2) (by rw [abs_of_nonneg (by omega)]; omega) (le_trans h0 h1) h1 with h | ⟨r, h, h8⟩
    · exact Or.inl h
    · exact Or.inr ⟨r, h, h8⟩

theorem squares_atLeast (l : List Int) (hl : ∀ z ∈ l, |z| ≤ 2 ^ 64) : ∀ (k : Int) (a : Num binary64), 0 ≤ k → AtLeast k a →
    AtLeast (k + (l.map fun z => z * z).sum) (l.foldl (fun a b => a + (Ints.toScalar b : Num binary64) * Ints.toScalar b) a) := by
  induction l with
  | nil => intro k a _ h; simpa using h
  | cons z l ih =>
    intro k a hk h
    rw [List.map_cons, List.sum_cons, ← add_assoc, List.foldl_cons]
    have hz := mul_self_nonneg z
    exact ih (fun z hz => hl z (by simp [hz])) _ _ (by omega) (add_atLeast hk hz h (square_atLeast (hl z (by simp))))

theorem root_atLeast {a : Num binary64} (h : AtLeast 2 a) : root64 a = Fl.inf false ∨ ∃ r : ℚ, root64 a = Fl.fin r ∧ 5 / 4 ≤ r := by
  rcases h with rfl | ⟨q, rfl, hq⟩
  · exact Or.inl rfl
  · have hq2 : (2 : ℚ) ≤ q := by simpa using hq
    have e : root64 (Fl.fin q) = binary64 (Nat.sqrt ⌊q * 4 ^ 1200⌋₊ / 2 ^ 1200) := by
      exact if_neg (not_lt.mpr (by linarith))
    have h1 : 5 * 2 ^ 1198 ≤ Nat.sqrt ⌊q * 4 ^ 1200⌋₊ := by
      rw [Nat.le_sqrt]
      refine Nat.le_floor ?_
      have h4 : (0 : ℚ) < 4 ^ 1200 := by positivity
      have h5 : (2 : ℚ) ^ 1198 * 2 ^ 1198 * 16 = 4 ^ 1200 := by
        rw [show (4 : ℚ) = 2 * 2 by norm_num, mul_pow, show (1200 : ℕ) = 1198 + 2 by norm_num, pow_add]
        generalize (2 : ℚ) ^ 1198 = w
        ring
      rw [← h5]
      have h6 : (0 : ℚ) < 2 ^ 1198 := by positivity
      push_cast
      generalize (2 : ℚ) ^ 1198 = w at *
      clear h4 h5 e
      have h7 := mul_le_mul_of_nonneg_right hq2 (mul_pos h6 h6).le
      have h8 := mul_pos h6 h6
      linarith
    have h2 : (5 / 4 : ℚ) ≤ Nat.sqrt ⌊q * 4 ^ 1200⌋₊ / 2 ^ 1200 := by
      rw [le_div_iff₀ (by positivity)]
      have : (5 * 2 ^ 1198 : ℚ) ≤ Nat.sqrt ⌊q * 4 ^ 1200⌋₊ := by exact_mod_cast h1
      refine le_trans (le_of_eq ?_) this
      rw [show (1200 : ℕ) = 1198 + 2 by norm_num, pow_add]
      generalize (2 : ℚ) ^ 1198 = w
      ring
    rw [e]
    cases hr : binary64 (Nat.sqrt ⌊q * 4 ^ 1200⌋₊ / 2 ^ 1200) with
    | fin r => exact Or.inr ⟨r, rfl, (binary64_between hr (show binary64 (5 / 4) = .fin (5 / 4) by decide +kernel)).1 h2⟩
    | inf s =>
      left
      rw [binary64_near] at hr
      split at hr
      · cases hr
      · rw [← hr, decide_eq_false (not_lt.mpr (by positivity))]
    | nan =>
      rw [binary64_near] at hr
      split at hr <;> cases hr

/-- The factor of `unit`. -/
theorem unit_factor {n : Nat} (hb : 32 ≤ t.bits) (x : Fin n → Int) (hx : ∀ i, |x i| ≤ 2 ^ 64) :
    Ints.fromScalar t (if Rounded.isInf (fin 1 / Ints.norm2 root64 (vec x)) then fin 0 else fin 1 / Ints.norm2 root64 (vec x)) =
      .ok (if ∑ i, x i * x i = 1 then 1 else 0) := by
  have hpos : (1 : Int) < 2 ^ (t.bits - 1) := one_lt_pow₀ (by norm_num) (by omega)
  have hpos' : (1 : Int) < 2 ^ t.bits := one_lt_pow₀ (by norm_num) (by omega)
  have h0 : InType t 0 := by
    unfold InType IntTy.min IntTy.max
    split <;> constructor <;> omega
  have h1 : InType t 1 := by
    unfold InType IntTy.min IntTy.max
    split <;> constructor <;> omega
  have hf0 : Ints.fromScalar t (fin 0 : Num binary64) = .ok 0 := by simpa using fromScalar_int h0
  have hf1 : Ints.fromScalar t (fin 1 : Num binary64) = .ok 1 := by simpa using fromScalar_int h1
  have hs : 0 ≤ ∑ i, x i * x i := Finset.sum_nonneg fun i _ => mul_self_nonneg _
  by_cases hle : ∑ i, x i * x i < 2
  · rw [c160_norm2 root64 x (by omega)]
    rcases (show ∑ i, x i * x i = 0 ∨ ∑ i, x i * x i = 1 by omega) with h | h
    · rw [h]
      have e : (fin 1 / root64 (fin ((0 : Int) : ℚ)) : Num binary64) = (show Num binary64 from Fl.inf false) := by decide +kernel
      rw [e]
      exact hf0
    · rw [h]
      have e : (fin 1 / root64 (fin ((1 : Int) : ℚ)) : Num binary64) = fin 1 := by decide +kernel
      rw [e]
      exact hf1
  · rw [if_neg (show ¬ ∑ i, x i * x i = 1 by omega)]
    have hA : AtLeast 2 ((vec x).foldl (fun a b => a + (Ints.toScalar b : Num binary64) * Ints.toScalar b) 0) := by
      have := squares_atLeast (vec x) (by
        intro z hz
        unfold vec at hz
        obtain ⟨i, rfl⟩ := List.mem_ofFn.mp hz
        exact hx i) 0 0 le_rfl (Or.inr ⟨0, rfl, by simp⟩)
      have e : ((vec x).map fun z => z * z).sum = ∑ i, x i * x i := by
        unfold vec
        rw [List.map_ofFn, List.sum_ofFn]
        rfl
      rw [e, zero_add] at this
      rcases this with h | ⟨q, h, hq⟩
      · exact Or.inl h
      · refine Or.inr ⟨q, h, ?_⟩
        rw [min_eq_right (by omega)] at hq
        simpa using hq
    have hN : Ints.norm2 root64 (vec x) = root64 ((vec x).foldl (fun a b => a + (Ints.toScalar b : Num binary64) * Ints.toScalar b) 0) := by
      unfold Ints.norm2 Rounded.norm2
      rw [List.foldl_map]
    rw [hN]
    rcases root_atLeast hA with h | ⟨r, h, hr⟩
    · rw [h]
      exact hf0
    · have h' : root64 ((vec x).foldl (fun a b => a + (Ints.toScalar b : Num binary64) * Ints.toScalar b) 0) = fin r := h
      rw [h']
      have e : (fin 1 / (fin r : Num binary64)) = (show Num binary64 from binary64 (1 / r)) :=
        if_neg (show ¬ r = 0 by intro h; rw [h] at hr; norm_num at hr)
      have hlo : 0 ≤ 1 / r := by positivity
      have hhi : 1 / r ≤ 7 / 8 := by
        rw [div_le_iff₀ (by linarith)]
        linarith
      obtain ⟨w, hw, hw0, hw1⟩ : ∃ w : ℚ, binary64 (1 / r) = .fin w ∧ 0 ≤ w ∧ w ≤ 7 / 8 := by
        have h78 : near64 (7 / 8) = 7 / 8 := by decide +kernel
        have e1 : near64 (1 / r) ≤ 7 / 8 := by
          rw [← h78]
          exact near64_mono hhi
        have e2 := near64_nonneg hlo
        refine ⟨near64 (1 / r), ?_, e2, e1⟩
        rw [binary64_near, if_pos]
        rw [abs_of_nonneg e2]
        exact lt_of_le_of_lt e1 (lt_of_lt_of_le (by norm_num) (one_le_pow₀ (by norm_num)))
      rw [e, hw]
      show (if t.min ≤ w.num.tdiv w.den ∧ w.num.tdiv w.den ≤ t.max then Out.ok (w.num.tdiv w.den) else .ub) = _
      have hz : w.num.tdiv w.den = 0 := by
        refine Int.tdiv_eq_zero_of_lt (Rat.num_nonneg.mpr hw0) ?_
        have : w < 1 := by linarith
        rw [Rat.lt_iff] at this
        simpa using this
      rw [hz]
      exact if_pos h0

theorem unit_ints (t : IntTy) (hb : 32 ≤ t.bits) {n : Nat} (x : Fin n → Int) (hx : ∀ i, InType t (x i)) (hx' : ∀ i, |x i| ≤ 2 ^ 64) :
    Ints.unit t root64 (vec x) = .ok (vec fun i => if ∑ i, x i * x i = 1 then x i else 0) := by
  unfold Ints.unit
  dsimp only
  rw [unit_factor hb x hx', Out.ok_bind]
  have e : (vec x).map (fun x => (Elem.of x : Elem t)) = ints t x := by
    unfold ints vec
    rw [List.map_ofFn]
    rfl
  rw [e, (c159_vectors t hb (r := 0) (s := 0) (by simp [Sized]) (by simp [Sized]) x x _).2.2.2.2.1]
  have h0 : InType t 0 := by
    unfold InType IntTy.min IntTy.max
    have hpos : (1 : Int) < 2 ^ (t.bits - 1) := one_lt_pow₀ (by norm_num) (by omega)
    have hpos' : (1 : Int) < 2 ^ t.bits := one_lt_pow₀ (by norm_num) (by omega)
    split <;> constructor <;> omega
  unfold inArithmetic
  by_cases h : ∑ i, x i * x i = 1
  · simp only [if_pos h, mul_one]
    rw [if_pos hx]
  · simp only [if_neg h, mul_zero]
    rw [if_pos fun _ => h0]

/-- C161, in full for `unit`: if the vector of length one in the direction of `x` has integer elements, it is returned. -/
def C161 : Prop :=
  ∀ {n : Nat} (x u : Fin n → Int) (k : Int), (∀ i, InType ⟨32, true⟩ (x i)) → 0 < k → (∀ i, x i = k * u i) → ∑ i, u i * u i = 1 →
    Ints.unit ⟨32, true⟩ root64 (vec x) = .ok (vec u)

/-- C161 for the vector `0, 5`, whose unit vector is given as zero. -/
theorem c161_violated : ¬ C161 ∧ Ints.unit ⟨32, true⟩ root64 [0, 5] = .ok [0, 0] := by
  have h1 := unit_ints ⟨32, true⟩ (by decide) (n := 2) ![0, 5] (by decide) (by decide)
  have h2 : Ints.unit ⟨32, true⟩ root64 [0, 5] = .ok [0, 0] := h1
  refine ⟨fun h => ?_, h2⟩
  have h3 := h (n := 2) ![0, 5] ![0, 1] 5 (by decide) (by decide) (by decide) (by decide)
  have h4 : Ints.unit ⟨32, true⟩ root64 [0, 5] = .ok [0, 1] := h3
  rw [h2] at h4
  revert h4
  decide

/-- C161, `unit` exactly: a vector of length one is returned, all others give the zero vector. -/
theorem c161_unit (t : IntTy) (hb : 32 ≤ t.bits ∧ t.bits ≤ 64) {n : Nat} (x : Fin n → Int) (hx : ∀ i, InType t (x i)) :
    Ints.unit t root64 (vec x) = .ok (vec fun i => if ∑ i, x i * x i = 1 then x i else 0) := by
  refine unit_ints t hb.1 x hx fun i => ?_
  have := hx i
  unfold InType IntTy.min IntTy.max at this
  have h1 : (2 : Int) ^ (t.bits - 1) ≤ 2 ^ 64 := pow_le_pow_right₀ (by norm_num) (by omega)
  have h2 : (2 : Int) ^ t.bits ≤ 2 ^ 64 := pow_le_pow_right₀ (by norm_num) (by omega)
  rw [abs_le]
  split at this <;> constructor <;> omega

/-- The cosine that `angle` finds for integer vectors. -/
def foundCosine {n : Nat} (x y : Fin n → Int) : Int := if ∑ i, x i * x i = 1 ∧ ∑ i, y i * y i = 1 then ∑ i, x i * y i else 0

theorem foundCosine_cases {n : Nat} (x y : Fin n → Int) : foundCosine x y = -1 ∨ foundCosine x y = 0 ∨ foundCosine x y = 1 := by
  unfold foundCosine
  split
  · rename_i h
    have h1 : 0 ≤ ∑ i, (x i - y i) * (x i - y i) := Finset.sum_nonneg fun i _ => mul_self_nonneg _
    have h2 : 0 ≤ ∑ i, (x i + y i) * (x i + y i) := Finset.sum_nonneg fun i _ => mul_self_nonneg _
    have e1 : ∑ i, (x i - y i) * (x i - y i) = ∑ i, x i * x i + ∑ i, y i * y i - 2 * ∑ i, x i * y i := by
      rw [Finset.mul_sum, ← Finset.sum_add_distrib, ← Finset.sum_sub_distrib]
      exact Finset.sum_congr rfl fun i _ => by ring
    have e2 : ∑ i, (x i + y i) * (x i + y i) = ∑ i, x i * x i + ∑ i, y i * y i + 2 * ∑ i, x i * y i := by
      rw [Finset.mul_sum, ← Finset.sum_add_distrib, ← Finset.sum_add_distrib]
      exact Finset.sum_congr rfl fun i _ => by ring
    omega
  · omega

/-- C161, `angle` exactly: right if both vectors have length one, and a right angle otherwise.  Angles in radians lose their fraction.
`acos` is the arc cosine of the library, of which three values are used. -/
theorem c161_angle (t : IntTy) (ht : t.signed = true) (hb : 32 ≤ t.bits ∧ t.bits ≤ 64) {n : Nat} (hn : n = 2 ∨ n = 3) (x y : Fin n → Int)
    (hx : ∀ i, InType t (x i)) (hy : ∀ i, InType t (y i)) (acos : Num binary64 → Num binary64) (h1 : acos (fin 1) = fin 0)
    (h0 : acos (fin 0) = fin (Rounded.pi64 / 2)) (hm : acos (fin (-1)) = fin Rounded.pi64) :
    Ints.angle t root64 acos false (vec x) (vec y) = .ok (if foundCosine x y = 1 then 0 else if foundCosine x y = -1 then 180 else 90) ∧
    Ints.angle t root64 acos true (vec x) (vec y) = .ok (if foundCosine x y = 1 then 0 else if foundCosine x y = -1 then 3 else 1) := by
  have hpos : (2 : Int) ^ 31 ≤ 2 ^ (t.bits - 1) := pow_le_pow_right₀ (by norm_num) (by omega)
  have hin : ∀ z : Int, |z| ≤ 180 → InType t z := by
    intro z hz
    have := abs_le.mp hz
    unfold InType IntTy.min IntTy.max
    rw [ht, if_pos rfl, if_pos rfl]
    constructor <;> omega
  have hp : t.promote = t := by unfold IntTy.promote; rw [if_neg (by omega)]
  -- the dot product of the two results of `unit`
  have hu : ∀ (z : Fin n → Int) (i : Fin n), |if ∑ i, z i * z i = 1 then z i else 0| ≤ 1 := by
    intro z i
    split
    · rename_i h
      have h1 : z i * z i ≤ 1 := by
        rw [← h]
        exact Finset.single_le_sum (f := fun i => z i * z i) (fun _ _ => mul_self_nonneg _) (Finset.mem_univ i)
      rw [abs_le]
      constructor <;> nlinarith
    · simp
  have hd : Ints.dot (rnd := binary64) t (vec fun i => if ∑ i, x i * x i = 1 then x i else 0)
      (vec fun i => if ∑ i, y i * y i = 1 then y i else 0) = .ok (fin (foundCosine x y : ℚ)) := by
    have hprod : ∀ i, |(if ∑ i, x i * x i = 1 then x i else 0) * (if ∑ i, y i * y i = 1 then y i else 0)| ≤ 1 := by
      intro i
      rw [abs_mul]
      exact mul_le_one₀ (hu x i) (abs_nonneg _) (hu y i)
    rw [c160_dot_partial t _ _ (fun i => by rw [hp]; exact hin _ (le_trans (hprod i) (by norm_num)))]
    · congr 3
      unfold foundCosine
      by_cases hxx : ∑ i, x i * x i = 1 <;> by_cases hyy : ∑ i, y i * y i = 1 <;> simp [hxx, hyy]
    · refine lt_of_le_of_lt (Finset.sum_le_sum (g := fun _ => (1 : Int)) fun i _ => hprod i) ?_
      simp only [Finset.sum_const, Finset.card_univ, Fintype.card_fin, nsmul_eq_mul, mul_one]
      rcases hn with rfl | rfl <;> norm_num
  have hA : ∀ radians, Ints.angle t root64 acos radians (vec x) (vec y) =
      Ints.fromScalar t (acos (Rounded.clamp (fin (foundCosine x y : ℚ)) (fin (-1)) (fin 1)) /
        (if radians then fin 1 else fin Rounded.pi64 / fin 180)) := by
    intro radians
    unfold Ints.angle
    have hl : (n == 2 || n == 3) = true := by rcases hn with rfl | rfl <;> rfl
    rw [vec_length, vec_length, hl, c161_unit t hb x hx, c161_unit t hb y hy]
    simp only [beq_self_eq_true, assert_true, Out.ok_bind]
    rw [hd, Out.ok_bind]
  rw [hA, hA]
  rcases foundCosine_cases x y with h | h | h <;> rw [h]
  · have e : (Rounded.clamp (fin ((-1 : Int) : ℚ)) (fin (-1)) (fin 1) : Num binary64) = fin (-1) := by decide +kernel
    rw [e, hm]
    constructor
    · have e : (fin Rounded.pi64 / (if false = true then fin 1 else fin Rounded.pi64 / fin 180) : Num binary64) = fin ((180 : Int) : ℚ) := by decide +kernel
      rw [e]
      exact fromScalar_int (hin _ (by norm_num))
    · have e : (fin Rounded.pi64 / (if true = true then fin 1 else fin Rounded.pi64 / fin 180) : Num binary64) = fin Rounded.pi64 := by decide +kernel
      rw [e]
      exact fromScalar_fin (by decide +kernel) (hin 3 (by norm_num))
  · have e : (Rounded.clamp (fin ((0 : Int) : ℚ)) (fin (-1)) (fin 1) : Num binary64) = fin 0 := by decide +kernel
    rw [e, h0]
    constructor
    · have e : (fin (Rounded.pi64 / 2) / (if false = true then fin 1 else fin Rounded.pi64 / fin 180) : Num binary64) = fin ((90 : Int) : ℚ) := by decide +kernel
      rw [e]
      exact fromScalar_int (hin _ (by norm_num))
    · have e : (fin (Rounded.pi64 / 2) / (if true = true then fin 1 else fin Rounded.pi64 / fin 180) : Num binary64) = fin (Rounded.pi64 / 2) := by decide +kernel
      rw [e]
      exact fromScalar_fin (by decide +kernel) (hin 1 (by norm_num))
  · have e : (Rounded.clamp (fin ((1 : Int) : ℚ)) (fin (-1)) (fin 1) : Num binary64) = fin 1 := by decide +kernel
    rw [e, h1]
    constructor
    · have e : (fin 0 / (if false = true then fin 1 else fin Rounded.pi64 / fin 180) : Num binary64) = fin ((0 : Int) : ℚ) := by decide +kernel
      rw [e]
      exact fromScalar_int (hin _ (by norm_num))
    · have e : (fin 0 / (if true = true then fin 1 else fin Rounded.pi64 / fin 180) : Num binary64) = fin ((0 : Int) : ℚ) := by decide +kernel
      rw [e]
      exact fromScalar_int (hin _ (by norm_num))

/-- The hypotheses: equal vectors whose angle is found to be a right one, and opposite ones of length one, for an arc cosine with the three
values. -/
example : ∃ acos : Num binary64 → Num binary64, acos (fin 1) = fin 0 ∧ acos (fin 0) = fin (Rounded.pi64 / 2) ∧ acos (fin (-1)) = fin Rounded.pi64 ∧
    Ints.angle ⟨32, true⟩ root64 acos false [1, 1] [1, 1] = .ok 90 ∧ Ints.angle ⟨32, true⟩ root64 acos false [0, 1] [0, -1] = .ok 180 ∧
    Ints.angle ⟨32, true⟩ root64 acos true [0, 1] [0, -1] = .ok 3 ∧ Ints.angle ⟨32, true⟩ root64 acos false [0, 2] [0, 3] = .ok 90 := by
  refine ⟨fun a => if a = fin 1 then fin 0 else if a = fin 0 then fin (Rounded.pi64 / 2) else fin Rounded.pi64, ?_⟩
  decide +kernel

end Disa.Props
