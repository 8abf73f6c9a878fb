import Verif.Props.Fused
import Verif.Props.LuIntegers

/-!
# Property C227: fused operations change nothing where products need no rounding
-/

namespace Disa.Props

open Disa Spec Dense Num Lu Fused

variable {fuse : Hist → Hist → Hist → Bool} {n : Nat}

/-- A product that needs no rounding. -/
def NotRounded (a b : ℚ) : Prop := binary64 (a * b) = .fin (a * b)

theorem operand_exact {a b : Fused binary64 fuse} {p q : ℚ} (ha : a.get = .fin p) (hb : b.get = .fin q) (h : NotRounded p q) (k : Hist) :
    (a * b).operand k = .fin (p * q) := by
  show Fl.mul (if fuse k a.hist b.hist then .fin else binary64) a.get b.get = _
  rw [ha, hb]
  split
  · rfl
  · exact h

theorem sub_exact {v a b : Fused binary64 fuse} {w : Num binary64} {p q : ℚ} (hv : v.get = w) (ha : a.get = .fin p) (hb : b.get = .fin q)
    (h : NotRounded p q) : (v - a * b).get = w - fin p * fin q := by
  have e : (fin p * fin q : Num binary64) = fin (p * q) := h
  rw [e]
  show Fl.sub binary64 v.get ((a * b).operand v.hist) = _
  rw [operand_exact ha hb h, hv]
  rfl

theorem add_exact {v a b : Fused binary64 fuse} {w : Num binary64} {p q : ℚ} (hv : v.get = w) (ha : a.get = .fin p) (hb : b.get = .fin q)
    (h : NotRounded p q) : (v + a * b).get = w + fin p * fin q := by
  have e : (fin p * fin q : Num binary64) = fin (p * q) := h
  rw [e]
  show Fl.add binary64 v.get ((a * b).operand v.hist) = _
  rw [operand_exact ha hb h, hv]
  rfl

theorem less_exact {v : Fused binary64 fuse} {w : Num binary64} (hv : v.get = w) {f g : Fin n → Fused binary64 fuse} {p q : Fin n → ℚ}
    {a m : Nat} (h : ∀ c : Fin n, a ≤ c.1 → c.1 < a + m → (f c).get = .fin (p c) ∧ (g c).get = .fin (q c) ∧ NotRounded (p c) (q c)) :
    (less v (fun c => f c * g c) a m).get = less w (fun c => fin (p c) * fin (q c)) a m := by
  induction m with
  | zero => exact hv
  | succ m ih =>
    have ih := ih fun c h1 h2 => h c h1 (by omega)
    unfold less
    split
    · obtain ⟨h1, h2, h3⟩ := h ⟨a + m, by assumption⟩ (by simp) (by simp)
      exact sub_exact ih h1 h2 h3
    · exact ih

/-! ### The steps of the factorisation -/

section

variable {K : Type} [Zero K] [Sub K] [Mul K] [Div K]

/-- The matrix after `i` steps. -/
def eliminated (A : Fin n → Fin n → K) : Nat → Fin n → Fin n → K
  | 0 => A
  | i + 1 => if h : i < n then elim (eliminated A i) ⟨i, h⟩ else eliminated A i

omit [Zero K] in
theorem eliminated_fixed (A : Fin n → Fin n → K) {r c : Fin n} {i j : Nat} (h : r.1 ≤ i ∨ c.1 < i) (hij : i ≤ j) :
    eliminated A j r c = eliminated A i r c := by
  induction j with
  | zero =>
    obtain rfl : i = 0 := by omega
    rfl
  | succ j ih =>
    by_cases he : i = j + 1
    · rw [he]
    · have hij' : i ≤ j := by omega
      rw [← ih hij']
      conv_lhs => unfold eliminated
      split
      · rename_i hj
        unfold elim
        rcases h with h | h
        · rw [if_neg (fun q => by have : j < r.1 := q; omega)]
        · have hc : c.1 < j := by omega
          split
          · rw [if_neg (fun q => by rw [q] at hc; exact absurd hc (lt_irrefl _)), if_neg (fun q => by have : j < c.1 := q; omega)]
          · rfl
      · rfl

/-- The factorisation in terms of the steps. -/
theorem factorise_steps (F : Arith K) (s : Lu K) (A : Fin n → Fin n → K) :
    (∀ s', factorise F false s (mat A) = .ok (s', true) →
      s' = ⟨true, s.tol, mat (eliminated A n), s.piv⟩ ∧ ∀ i : Fin n, F.lt (F.abs (eliminated A i.1 i i)) s.tol = false) ∧
    ((∀ i : Fin n, F.lt (F.abs (eliminated A i.1 i i)) s.tol = false) →
      factorise F false s (mat A) = .ok (⟨true, s.tol, mat (eliminated A n), s.piv⟩, true)) := by
  obtain ⟨_, h2, N, ok, rfl, h3⟩ := loop_inv (n := n) (body := factoriseBody F false s.tol)
    (s := (mat A, s.piv, true))
    (fun i t => ∃ (N : Fin n → Fin n → K) (ok : Bool), t = (mat N, s.piv, ok) ∧
      ((ok = true ∧ N = eliminated A i ∧ ∀ k : Fin n, k.1 < i → F.lt (F.abs (eliminated A k.1 k k)) s.tol = false) ∨
        ok = false ∧ ∃ k : Fin n, F.lt (F.abs (eliminated A k.1 k k)) s.tol = true))
    ⟨A, true, rfl, .inl ⟨rfl, rfl, fun _ h => absurd h (Nat.not_lt_zero _)⟩⟩ (by
      rintro i t' hi ⟨N, ok, rfl, h3⟩
      rcases h3 with ⟨rfl, rfl, h3⟩ | ⟨rfl, h3⟩
      · cases hsmall : F.lt (F.abs (eliminated A i ⟨i, hi⟩ ⟨i, hi⟩)) s.tol with
        | true =>
          refine ⟨(mat (eliminated A i), s.piv, false), ?_, _, false, rfl, .inr ⟨rfl, ⟨i, hi⟩, hsmall⟩⟩
          unfold factoriseBody
          simp only [if_true, Bool.false_eq_true, if_false, show (pure (mat (eliminated A i), s.piv) : Out (List (List K) × List Nat)) = .ok (mat (eliminated A i), s.piv) from rfl, Out.ok_bind, rd2_mat (eliminated A i) hi hi, hsmall]
          rfl
        | false =>
          refine ⟨(mat (elim (eliminated A i) ⟨i, hi⟩), s.piv, true), ?_, _, true, rfl, .inl ⟨rfl, ?_, fun k hk => ?_⟩⟩
          · unfold factoriseBody
            simp only [if_true, Bool.false_eq_true, if_false, show (pure (mat (eliminated A i), s.piv) : Out (List (List K) × List Nat)) = .ok (mat (eliminated A i), s.piv) from rfl, Out.ok_bind, rd2_mat (eliminated A i) hi hi, hsmall, mat_length]
            have := eliminate_ok (eliminated A i) ⟨i, hi⟩
            simp only at this
            rw [this]
            rfl
          · conv_rhs => unfold eliminated
            rw [dif_pos hi]
          · by_cases hk' : k.1 = i
            · obtain rfl : k = ⟨i, hi⟩ := Fin.ext hk'
              exact hsmall
            · exact h3 k (by omega)
      · exact ⟨_, rfl, N, false, rfl, .inr ⟨rfl, h3⟩⟩)
  have hf : factorise F false s (mat A) = .ok ({ s with factorised := ok, lu := mat N, piv := s.piv }, ok) := by
    unfold factorise
    rw [mat_length]
    simp only [Bool.false_eq_true, if_false]
    rw [h2]
    rfl
  rcases h3 with ⟨rfl, rfl, h3⟩ | ⟨rfl, k, hk⟩
  · refine ⟨fun s' h => ?_, fun _ => hf⟩
    rw [hf] at h
    simp only [Out.ok.injEq, Prod.mk.injEq, and_true] at h
    exact ⟨h.symm, fun i => h3 i i.2⟩
  · refine ⟨fun s' h => ?_, fun h => ?_⟩
    · rw [hf] at h
      simp at h
    · rw [h k] at hk
      cases hk

end

/-! ### The property -/

/-- C227: if no product of elements of the factors needs to be rounded, the factorisation is the same whichever products are fused. -/
theorem c227_factors (s s' : Lu (Num binary64)) (u : Lu (Fused binary64 fuse)) (hu : u.tol.get = s.tol) (B : Fin n → Fin n → Num binary64)
    (A : Fin n → Fin n → Fused binary64 fuse) (hA : ∀ r c, (A r c).get = B r c)
    (hf : factorise (Num.arith binary64) false s (mat B) = .ok (s', true)) (M : Fin n → Fin n → ℚ)
    (hM : s'.lu = mat fun r c => (fin (M r c) : Num binary64)) (hp : ∀ r c k, k < r → k < c → NotRounded (M r k) (M k c)) :
    ∃ N : Fin n → Fin n → Fused binary64 fuse,
      factorise (Fused.arith binary64 fuse) false u (mat A) = .ok (⟨true, u.tol, mat N, u.piv⟩, true) ∧
      ∀ r c, (N r c).get = .fin (M r c) := by
  obtain ⟨e1, e2⟩ := (factorise_steps (Num.arith binary64) s B).1 s' hf
  subst e1
  have hE : eliminated B n = fun r c => fin (M r c) := mat_inj.mp hM
  have hsame : ∀ i, i ≤ n → ∀ r c, (eliminated A i r c).get = eliminated B i r c := by
    intro i
    induction i with
    | zero => exact fun _ => hA
    | succ i ih =>
      intro hi r c
      have hi' : i < n := by omega
      have ih := ih (by omega)
      have hq : i < r.1 → (eliminated A i r ⟨i, hi'⟩ / eliminated A i ⟨i, hi'⟩ ⟨i, hi'⟩).get = fin (M r ⟨i, hi'⟩) ∧
          eliminated B i r ⟨i, hi'⟩ / eliminated B i ⟨i, hi'⟩ ⟨i, hi'⟩ = fin (M r ⟨i, hi'⟩) := fun hr => by
        have h1 : eliminated B (i + 1) r ⟨i, hi'⟩ = eliminated B i r ⟨i, hi'⟩ / eliminated B i ⟨i, hi'⟩ ⟨i, hi'⟩ := by
          conv_lhs => unfold eliminated
          rw [dif_pos hi']
          unfold elim
          rw [if_pos (show (⟨i, hi'⟩ : Fin n) < r from hr), if_pos rfl]
        have h2 := eliminated_fixed B (r := r) (c := ⟨i, hi'⟩) (.inr (Nat.lt_succ_self i)) hi
        rw [hE, h1] at h2
        refine ⟨?_, h2.symm⟩
        show Fl.div binary64 _ _ = _
        rw [ih, ih]
        exact h2.symm
      unfold eliminated
      rw [dif_pos hi', dif_pos hi']
      unfold elim
      by_cases hr : (⟨i, hi'⟩ : Fin n) < r
      · simp only [if_pos hr]
        obtain ⟨q1, q2⟩ := hq hr
        by_cases hc : c = ⟨i, hi'⟩
        · rw [if_pos hc, if_pos hc, q1, q2]
        · rw [if_neg hc, if_neg hc]
          by_cases hci : (⟨i, hi'⟩ : Fin n) < c
          · rw [if_pos hci, if_pos hci, q2]
            have h3 := eliminated_fixed B (r := ⟨i, hi'⟩) (c := c) (.inl (le_refl i)) hi'.le
            rw [hE] at h3
            rw [← h3]
            exact sub_exact (ih r c) q1 (by rw [ih, ← h3]; rfl) (hp r c ⟨i, hi'⟩ hr hci)
          · rw [if_neg hci, if_neg hci, ih]
      · rw [if_neg hr, if_neg hr, ih]
  refine ⟨eliminated A n, (factorise_steps (Fused.arith binary64 fuse) u A).2 fun i => ?_, fun r c => ?_⟩
  · have h1 := e2 i
    show Fl.lt (Fl.abs (eliminated A i.1 i i).get) u.tol.get = false
    rw [hsame i.1 i.2.le, hu]
    exact h1
  · rw [hsame n le_rfl, hE]
    rfl

/-- C227: the same for the solution, where `y` are the values between the two sweeps. -/
theorem c227_solve (s : Lu (Num binary64)) (u : Lu (Fused binary64 fuse)) (hs : s.factorised = true) (hu : u.factorised = true)
    (M : Fin n → Fin n → ℚ) (N : Fin n → Fin n → Fused binary64 fuse) (hM : s.lu = mat fun r c => (fin (M r c) : Num binary64))
    (hN : u.lu = mat N) (hNM : ∀ r c, (N r c).get = .fin (M r c)) (d : Fin n → Num binary64) (b : Fin n → Fused binary64 fuse)
    (hb : ∀ r, (b r).get = d r) (z : List (Num binary64)) (z' : List (Fused binary64 fuse)) (x y : Fin n → ℚ)
    (hx : Lu.solve false s z (some (vec d)) = .ok (vec (fun r => (fin (x r) : Num binary64)), true, 1))
    (hy : ∀ r, (fin (y r) : Num binary64) = less (d r) (fun c => fin (M r c) * fin (y c)) 0 r.1)
    (hpy : ∀ r c, c < r → NotRounded (M r c) (y c)) (hpx : ∀ r c, r < c → NotRounded (M r c) (x c)) :
    ∃ X : Fin n → Fused binary64 fuse, Lu.solve false u z' (some (vec b)) = .ok (vec X, true, 1) ∧ ∀ r, (X r).get = .fin (x r) := by
  obtain ⟨v, w, e1, e2, e3⟩ := solve_any false s _ hs hM 1 (by simp) (fun _ => rfl) d z
  rw [e1] at hx
  simp only [Out.ok.injEq, Prod.mk.injEq, and_true] at hx
  obtain rfl := vec_inj.mp hx
  obtain ⟨Y, X, f1, f2, f3⟩ := solve_any false u N hu hN 1 (by simp) (fun _ => rfl) b z'
  simp only [Equiv.Perm.coe_one, id_eq] at e2 f2
  have hv : ∀ k, ∀ r : Fin n, r.1 = k → v r = fin (y r) := by
    intro k
    induction k using Nat.strong_induction_on with
    | _ k ih =>
      rintro r rfl
      rw [hy r, e2 r]
      refine less_congr fun c _ hc => ?_
      rw [ih c.1 (by omega) c rfl]
  have hY : ∀ k, ∀ r : Fin n, r.1 = k → (Y r).get = .fin (y r) := by
    intro k
    induction k using Nat.strong_induction_on with
    | _ k ih =>
      rintro r rfl
      rw [f2 r]
      refine (less_exact (hb r) (p := fun c => M r c) (q := y) fun c _ hc => ⟨hNM r c, ih c.1 (by omega) c rfl, hpy r c ?_⟩).trans (hy r).symm
      show c.1 < r.1
      omega
  refine ⟨X, f1, ?_⟩
  have hX : ∀ k, ∀ r : Fin n, n - r.1 = k → (X r).get = .fin (x r) := by
    intro k
    induction k using Nat.strong_induction_on with
    | _ k ih =>
      rintro r rfl
      have h1 : (less (Y r) (fun c => N r c * X c) (r.1 + 1) (n - (r.1 + 1))).get =
          less (fin (y r)) (fun c => fin (M r c) * fin (x c)) (r.1 + 1) (n - (r.1 + 1)) :=
        less_exact (hY r.1 r rfl) (p := fun c => M r c) (q := x) fun c hc _ =>
          ⟨hNM r c, ih (n - c.1) (by have := c.2; omega) c rfl, hpx r c (by show r.1 < c.1; omega)⟩
      have h2 := e3 r
      rw [hv r.1 r rfl] at h2
      rw [f3 r]
      show Fl.div binary64 _ _ = _
      rw [h1, hNM]
      exact h2.symm
  exact fun r => hX _ r rfl

/-- C227: the same for products of vectors. -/
theorem c227_dot (x y : Fin n → Fused binary64 fuse) (p q : Fin n → ℚ) (hx : ∀ i, (x i).get = .fin (p i)) (hy : ∀ i, (y i).get = .fin (q i))
    (h : ∀ i, NotRounded (p i) (q i)) :
    ∃ z, dot (vec x) (vec y) = .ok z ∧
      dot (vec fun i => (fin (p i) : Num binary64)) (vec fun i => (fin (q i) : Num binary64)) = .ok z.get := by
  have key : ∀ (l : List (Fin n)) (s : Fused binary64 fuse) (w : Num binary64), s.get = w →
      ((l.map fun i => (x i, y i)).foldl (fun s t => s + t.1 * t.2) s).get =
        (l.map fun i => ((fin (p i) : Num binary64), (fin (q i) : Num binary64))).foldl (fun s t => s + t.1 * t.2) w := by
    intro l
    induction l with
    | nil => exact fun _ _ h => h
    | cons i l ih =>
      intro s w hs
      simp only [List.map_cons, List.foldl_cons]
      exact ih _ _ (add_exact hs (hx i) (hy i) (h i))
  have hzip : ∀ {K : Type} (a b : Fin n → K), (vec a).zip (vec b) = (List.finRange n).map fun i => (a i, b i) := by
    intro K a b
    exact List.ext_getElem (by simp [vec]) fun _ _ _ => by simp [vec]
  unfold dot innerProduct
  simp only [vec_length, beq_self_eq_true, assert_true, Out.ok_bind, Nat.le_refl, if_true]
  refine ⟨_, rfl, ?_⟩
  rw [hzip, hzip, key _ 0 0 rfl]

/-- C227: systems of integers with factors of integers (C204) are solved without rounding, whichever products are fused. -/
theorem c227_integers (u : Lu (Fused binary64 fuse)) {t : ℚ} (ht : 0 < t) (hu : u.tol.get = .fin t) (L U : Fin n → Fin n → ℤ)
    (h1 : ∀ r, L r r = 1) (h0 : ∀ r c, r < c → L r c = 0) (h0' : ∀ r c, c < r → U r c = 0) (hU : ∀ i, t ≤ |U i i|)
    (hb : ∀ r c, ∑ k, |L r k * U k c| < 2 ^ 53) (x : Fin n → ℤ) (hx : ∀ r, ∑ k, |L r k| * ∑ c, |U k c * x c| < 2 ^ 53)
    (A : Fin n → Fin n → Fused binary64 fuse) (hA : ∀ r c, (A r c).get = .fin ((∑ k, L r k * U k c : ℤ) : ℚ))
    (b : Fin n → Fused binary64 fuse) (hb' : ∀ r, (b r).get = .fin ((∑ c, (∑ k, L r k * U k c) * x c : ℤ) : ℚ))
    (x0 : List (Fused binary64 fuse)) :
    ∃ (u' : Lu (Fused binary64 fuse)) (X : Fin n → Fused binary64 fuse),
      factorise (Fused.arith binary64 fuse) false u (mat A) = .ok (u', true) ∧
      Lu.solve false u' x0 (some (vec b)) = .ok (vec X, true, 1) ∧ ∀ r, (X r).get = .fin (x r : ℚ) := by
  have hex : ∀ {a c : ℤ}, |a * c| < 2 ^ 53 → NotRounded (a : ℚ) (c : ℚ) := fun h => by
    have := int_mul h
    rw [Int.cast_mul] at this
    exact this
  have hf := c204_factors ⟨false, fin t, [], []⟩ ht rfl L U h1 h0 h0' hU hb
  obtain ⟨s', hf', hx'⟩ := c204_solve ⟨false, fin t, [], []⟩ ht rfl L U h1 h0 h0' hU hb x hx []
  rw [hf] at hf'
  simp only [Out.ok.injEq, Prod.mk.injEq, and_true] at hf'
  subst hf'
  obtain ⟨N, g1, g2⟩ := c227_factors _ _ u hu _ A hA hf (fun r c => (packed L U r c : ℚ)) rfl fun r c k hr hc => by
    refine hex ?_
    simp only [packed, if_pos hr, if_neg (not_lt.mpr hc.le)]
    exact (one_abs (fun k => L r k * U k c) k).trans_lt (hb r c)
  have hsum : ∀ r, ∑ k, |L r k * ∑ c, U k c * x c| < 2 ^ 53 := by
    intro r
    refine lt_of_le_of_lt (Finset.sum_le_sum fun k _ => ?_) (hx r)
    rw [abs_mul]
    exact mul_le_mul_of_nonneg_left (Finset.abs_sum_le_sum_abs _ _) (abs_nonneg _)
  have hrow : ∀ k, ∑ c, |U k c * x c| < 2 ^ 53 := by
    intro k
    refine lt_of_le_of_lt ?_ (hx k)
    have := Finset.single_le_sum (f := fun j => |L k j| * ∑ c, |U j c * x c|)
      (fun j _ => mul_nonneg (abs_nonneg _) (Finset.sum_nonneg fun _ _ => abs_nonneg _)) (Finset.mem_univ k)
    simpa [h1] using this
  obtain ⟨v, w, e1, e2, e3⟩ := solve_any false (⟨true, fin t, mat fun r c => (fin (packed L U r c : ℚ) : Num binary64), []⟩ : Lu (Num binary64))
    _ rfl rfl 1 (by simp) (fun _ => rfl) (fun r => (fin ((∑ c, (∑ k, L r k * U k c) * x c : ℤ) : ℚ) : Num binary64)) []
  simp only [Equiv.Perm.coe_one, id_eq] at e2
  have hv := forward_int L U h1 h0 x hsum v e2
  obtain ⟨X, k1, k2⟩ := c227_solve _ ⟨true, u.tol, mat N, u.piv⟩ rfl rfl (fun r c => (packed L U r c : ℚ)) N rfl rfl g2
    (fun r => (fin ((∑ c, (∑ k, L r k * U k c) * x c : ℤ) : ℚ) : Num binary64)) b hb' [] x0 (fun r => (x r : ℚ))
    (fun r => ((∑ c, U r c * x c : ℤ) : ℚ)) hx' (fun r => by
      rw [← hv r, e2 r]
      exact less_congr fun c _ _ => by rw [hv c])
    (fun r c hc => hex (by
      simp only [packed, if_pos hc]
      exact (one_abs (fun k => L r k * ∑ c, U k c * x c) c).trans_lt (hsum r)))
    (fun r c hc => hex (by
      simp only [packed, if_neg (not_lt.mpr hc.le)]
      exact (one_abs (fun c => U r c * x c) c).trans_lt (hrow r)))
  exact ⟨_, X, g1, k1, k2⟩

/-- The case meets its hypotheses: a system whose elements, solution and factors are integers, with any choice of fused operations. -/
example (fuse : Hist → Hist → Hist → Bool) :
    ∃ (u' : Lu (Fused binary64 fuse)) (X : Fin 3 → Fused binary64 fuse),
      factorise (Fused.arith binary64 fuse) false ⟨false, inp 0 (64 * (1 / 2 ^ 52)), [], []⟩
        (mat fun r c => inp (3 * r.1 + c.1) ((∑ k, lowerOf r k * upperOf k c : ℤ) : ℚ)) = .ok (u', true) ∧
      Lu.solve false u' [] (some (vec fun r => inp (9 + r.1)
        ((∑ c, (∑ k, lowerOf r k * upperOf k c) * ([123456789, -987654321, 555] : List ℤ).getD c.1 0 : ℤ) : ℚ))) = .ok (vec X, true, 1) ∧
      ∀ r, (X r).get = .fin (([123456789, -987654321, 555] : List ℤ).getD r.1 0 : ℚ) :=
  c227_integers _ (t := 64 * (1 / 2 ^ 52)) (by norm_num) rfl lowerOf upperOf (by decide +kernel) (by decide +kernel) (by decide +kernel)
    (by decide +kernel) (by decide +kernel) (fun c => ([123456789, -987654321, 555] : List ℤ).getD c.1 0) (by decide +kernel) _
    (fun _ _ => rfl) _ (fun _ => rfl) _

/-- C227: where a product needs to be rounded, fused operations give other values. -/
theorem c227_rounded : ∃ z : Fused binary64 fun _ _ _ => true,
    dot [inp 0 (-(1 + 1 / 2 ^ 29)), inp 1 (1 + 1 / 2 ^ 30)] [inp 2 1, inp 3 (1 + 1 / 2 ^ 30)] = .ok z ∧ z.get = .fin (1 / 2 ^ 60) ∧
    dot [(fin (-(1 + 1 / 2 ^ 29)) : Num binary64), fin (1 + 1 / 2 ^ 30)] [fin 1, fin (1 + 1 / 2 ^ 30)] = .ok (fin 0) := by
  refine ⟨_, rfl, ?_, ?_⟩ <;> decide +kernel

end Disa.Props
