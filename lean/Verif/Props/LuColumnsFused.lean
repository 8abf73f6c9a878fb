import Verif.Props.LuColumns
import Verif.Props.LuAccurateFused

/-!
# Property C230: pivoting interchanges no equations of matrices whose columns are dominant, whatever operations are fused
-/

namespace Disa.Props

open Disa Spec Dense Num Lu Fused

variable {fuse : Hist → Hist → Hist → Bool}

/-! ### Columns -/

theorem heavy_column_works {V : Type} [Sub V] [Mul V] [Div V] {F : Arith V} {val : V → ℚ → Prop} {n : Nat} {u η R : ℚ}
    (hf : Works F val u η R) {t A S W : ℚ} (ht : 0 < t) (hS : t ≤ S) (hA : A ≤ t * R) (hR : 8 * A + 2 ≤ R) (hW : W ≤ A)
    {N : Fin n → Fin n → V} {Q : Fin n → Fin n → ℚ} (hN : ∀ r c, val (N r c) (Q r c)) {i : Fin n} (h : HeavyColumns S W Q i.1) :
    ∃ Q' : Fin n → Fin n → ℚ, (∀ r c, val (elim N i r c) (Q' r c)) ∧
      HeavyColumns (S - (6 * u * A + 3 * η * (n * (A + 1)))) (W + (6 * u * A + 3 * η * (n * (A + 1)))) Q' (i.1 + 1) := by
  have hu := hf.u_nonneg
  have hη := hf.η_nonneg
  have hus : u ≤ 1 / 8 := hf.u_small.trans (by norm_num)
  have hηs : η ≤ 1 / 8 := hf.η_small.trans (by norm_num)
  set T := columns n (i.1 + 1) with hT
  have hT' : ∀ c, c ∈ T → i < c := fun c hc => mem_columns.mp hc
  have hd : t ≤ |Q i i| := hS.trans h.pivot
  have hd0 : 0 < |Q i i| := ht.trans_le hd
  have hdne : Q i i ≠ 0 := abs_pos.mp hd0
  have hentry : ∀ r c : Fin n, i ≤ r → i ≤ c → |Q r c| ≤ A := fun r c hr hc => by
    have h1 := h.top c hc
    have h2 := Finset.single_le_sum (f := fun r => |Q r c|) (fun _ _ => abs_nonneg _) (show r ∈ columns n i.1 from mem_columns.mpr hr)
    linarith
  have hA0 : 0 < A := hd0.trans_le (hentry i i le_rfl le_rfl)
  -- the multipliers
  have hl : ∀ r, ∃ l, i < r → val (N r i / N i i) l ∧ |l - Q r i / Q i i| ≤ u * |Q r i / Q i i| + η := by
    intro r
    by_cases hr : i < r
    · obtain ⟨l, hl⟩ := hf.quot (hN r i) (hN i i) hdne (by
        rw [abs_div, div_le_iff₀ hd0]
        have h1 := hentry r i hr.le le_rfl
        have hR0 : 0 ≤ R := by linarith
        have := mul_le_mul_of_nonneg_right hd hR0
        linarith)
      exact ⟨l, fun _ => hl⟩
    · exact ⟨0, fun h => absurd h hr⟩
  choose l hl using hl
  have hle : ∀ r, i < r → |l r - Q r i / Q i i| ≤ u * |Q r i / Q i i| + η := fun r hr => (hl r hr).2
  have hl2 : ∀ r, i < r → |l r| ≤ 5 / 4 := fun r hr => by
    have h1 : |Q r i / Q i i| ≤ 1 := by
      rw [abs_div, div_le_one hd0]
      exact (h.below (ht.trans_le hS) hr).le
    have h2 := abs_add_le (l r - Q r i / Q i i) (Q r i / Q i i)
    rw [sub_add_cancel] at h2
    have h3 := hle r hr
    have h4 : u * |Q r i / Q i i| ≤ 1 / 8 * 1 := mul_le_mul hus h1 (abs_nonneg _) (by norm_num)
    linarith
  have hw : ∀ r c, i < r → i < c → |l r * Q i c| ≤ 2 * A := fun r c hr hc => by
    rw [abs_mul]
    have := mul_le_mul (hl2 r hr) (hentry i c le_rfl hc.le) (abs_nonneg _) (by norm_num)
    linarith
  have hq : ∀ r c, ∃ p q, i < r → i < c → |p - l r * Q i c| ≤ u * |l r * Q i c| + η ∧ |q - (Q r c - p)| ≤ u * |Q r c - p| + η ∧
      val (N r c - N r i / N i i * N i c) q := by
    intro r c
    by_cases hrc : i < r ∧ i < c
    · obtain ⟨p, q, h1⟩ := hf.diff (hN r c) (hl r hrc.1).1 (hN i c) (by
        have h2 := hentry r c hrc.1.le hrc.2.le
        have h3 := hw r c hrc.1 hrc.2
        have h4 : u * |l r * Q i c| ≤ 1 / 8 * (2 * A) := mul_le_mul hus h3 (abs_nonneg _) (by norm_num)
        linarith)
      exact ⟨p, q, fun _ _ => h1⟩
    · exact ⟨0, 0, fun h1 h2 => absurd ⟨h1, h2⟩ hrc⟩
  choose p q hq using hq
  have hcard : (T.card : ℚ) ≤ n := by
    have := Finset.card_le_univ T
    rw [Fintype.card_fin] at this
    exact_mod_cast this
  have hcol : ∑ r ∈ T, |Q r i| ≤ |Q i i| := by
    have h1 := h.rest i le_rfl
    rw [columns_erase] at h1
    linarith [ht.trans_le hS]
  have hdiv : ∑ r ∈ T, |Q r i / Q i i| ≤ 1 := by
    calc ∑ r ∈ T, |Q r i / Q i i| = (∑ r ∈ T, |Q r i|) / |Q i i| := by
          rw [Finset.sum_div]
          exact Finset.sum_congr rfl fun r _ => abs_div _ _
      _ ≤ 1 := by rw [div_le_one hd0]; exact hcol
  -- a column
  have hcolumn : ∀ c, i < c → (S - (6 * u * A + 3 * η * (n * (A + 1))) + ∑ r ∈ T.erase c, |q r c| ≤ |q c c|) ∧
      ∑ r ∈ T, |q r c| ≤ W + (6 * u * A + 3 * η * (n * (A + 1))) := by
    intro c hc
    have hcT : c ∈ T := mem_columns.mpr hc
    have hsc := h.rest c hc.le
    have htc := h.top c hc.le
    rw [columns_split, ← hT] at htc
    have hner : i ∈ (columns n i.1).erase c := Finset.mem_erase.mpr ⟨ne_of_lt hc, mem_columns.mpr le_rfl⟩
    have hsc2 := Finset.add_sum_erase _ (fun r => |Q r c|) hner
    rw [Finset.erase_right_comm, columns_erase, ← hT] at hsc2
    have key := column_change T (m := fun r => Q r c) (q := fun r => q r c) (a := fun r => Q r i) (l := l) (p := fun r => p r c)
      (d := Q i i) (w := Q i c) hu hus hη hdne (fun r hr => hle r (hT' r hr))
      (fun r hr => (hq r c (hT' r hr) hc).1) (fun r hr => (hq r c (hT' r hr) hc).2.1) hcol
      (hentry i c le_rfl hc.le) (by
        have := abs_nonneg (Q i c)
        linarith) hcard
    set E := 6 * u * A + 3 * η * (n * (A + 1)) with hE
    set ε : Fin n → ℚ := fun r => |q r c - (Q r c - Q r i / Q i i * Q i c)| with hε
    change ∑ r ∈ T, ε r ≤ E at key
    have keyc := Finset.add_sum_erase T ε hcT
    have hup : ∀ r, |q r c| ≤ ε r + |Q r c| + |Q r i / Q i i| * |Q i c| := fun r => by
      have h1 := abs_add_le (q r c - (Q r c - Q r i / Q i i * Q i c)) (Q r c - Q r i / Q i i * Q i c)
      have h2 := abs_sub (Q r c) (Q r i / Q i i * Q i c)
      rw [sub_add_cancel] at h1
      rw [abs_mul] at h2
      linarith
    have hlow : |Q c c| - |Q c i / Q i i| * |Q i c| - ε c ≤ |q c c| := by
      have h1 := abs_sub_abs_le_abs_sub (Q c c) (Q c i / Q i i * Q i c)
      have h2 := abs_sub_abs_le_abs_sub (Q c c - Q c i / Q i i * Q i c) (q c c)
      rw [abs_sub_comm (Q c c - Q c i / Q i i * Q i c) (q c c)] at h2
      rw [abs_mul] at h1
      show _ - |q c c - (Q c c - Q c i / Q i i * Q i c)| ≤ _
      linarith
    have hsumT : (∑ r ∈ T, |Q r i / Q i i|) * |Q i c| ≤ |Q i c| := mul_le_of_le_one_left (abs_nonneg _) hdiv
    constructor
    · have h1 := Finset.sum_le_sum fun r (_ : r ∈ T.erase c) => hup r
      rw [Finset.sum_add_distrib, Finset.sum_add_distrib, ← Finset.sum_mul] at h1
      rw [← Finset.add_sum_erase T (fun r => |Q r i / Q i i|) hcT, add_mul] at hsumT
      linarith
    · have h1 := Finset.sum_le_sum fun r (_ : r ∈ T) => hup r
      rw [Finset.sum_add_distrib, Finset.sum_add_distrib, ← Finset.sum_mul] at h1
      linarith
  set Q' : Fin n → Fin n → ℚ := fun r c => if i < r then (if c = i then l r else if i < c then q r c else Q r c) else Q r c with hQ'
  have qOld : ∀ r c, ¬ i < r → Q' r c = Q r c := fun r c hr => by simp only [hQ', hr, if_false]
  have qLeft : ∀ r c, c < i → Q' r c = Q r c := fun r c hc => by
    simp only [hQ', ne_of_lt hc, lt_asymm hc, if_false]
    split <;> rfl
  have qNew : ∀ r c, i < r → i < c → Q' r c = q r c := fun r c hr hc => by
    simp only [hQ', hr, hc, ne_of_gt hc, if_true, if_false]
  have qMult : ∀ r, i < r → Q' r i = l r := fun r hr => by simp only [hQ', hr, if_true]
  refine ⟨Q', ?_, fun c hc => ?_, fun c hc => ?_⟩
  · intro r c
    unfold elim
    by_cases hr : i < r
    · simp only [hr, if_true]
      by_cases hc : c = i
      · subst hc
        rw [if_pos rfl, qMult r hr]
        exact (hl r hr).1
      · rw [if_neg hc]
        by_cases hc' : i < c
        · rw [if_pos hc', qNew r c hr hc']
          exact (hq r c hr hc').2.2
        · rw [if_neg hc', qLeft r c (lt_of_le_of_ne (not_lt.mp hc') hc)]
          exact hN r c
    · simp only [hr, if_false]
      rw [qOld r c hr]
      exact hN r c
  · have hic : i < c := hc
    rw [qNew c c hic hic]
    refine le_trans (le_of_eq ?_) (hcolumn c hic).1
    congr 1
    refine Finset.sum_congr rfl fun r hr => ?_
    rw [qNew r c (hT' r (Finset.mem_of_mem_erase hr)) hic]
  · have hic : i < c := hc
    refine le_trans (le_of_eq ?_) (hcolumn c hic).2
    refine Finset.sum_congr rfl fun r hr => ?_
    rw [qNew r c (hT' r hr) hic]

/-! ### The search for the pivot -/

theorem stdMin_get {rnd : ℚ → Fl} (a b : Fused rnd fuse) :
    ((Fused.arith rnd fuse).stdMin a b).get = (Num.arith rnd).stdMin (a.get : Num rnd) b.get := by
  unfold Arith.stdMin
  show (if Fl.lt b.get a.get then b else a).get = if Fl.lt b.get a.get then b.get else a.get
  split <;> rfl

theorem stdMax_get {rnd : ℚ → Fl} (a b : Fused rnd fuse) :
    ((Fused.arith rnd fuse).stdMax a b).get = (Num.arith rnd).stdMax (a.get : Num rnd) b.get := by
  unfold Arith.stdMax
  show (if Fl.lt a.get b.get then b else a).get = if Fl.lt a.get b.get then b.get else a.get
  split <;> rfl

/-- Comparisons see the numbers only, not how they were computed. -/
theorem nearlyGreater_get {rnd : ℚ → Fl} (a b : Fused rnd fuse) :
    (Fused.arith rnd fuse).nearlyGreater a b (Fused.arith rnd fuse).rel (Fused.arith rnd fuse).tol =
      (Num.arith rnd).nearlyGreater (a.get : Num rnd) b.get (Num.arith rnd).rel (Num.arith rnd).tol := by
  have key : (Fused.arith rnd fuse).lt ((Fused.arith rnd fuse).abs ((Fused.arith rnd fuse).sub a b)) ((Fused.arith rnd fuse).stdMax
        (Fused.arith rnd fuse).tol ((Fused.arith rnd fuse).mul (Fused.arith rnd fuse).rel ((Fused.arith rnd fuse).stdMin
          ((Fused.arith rnd fuse).add ((Fused.arith rnd fuse).abs a) ((Fused.arith rnd fuse).abs b)) (Fused.arith rnd fuse).max))) =
      (Num.arith rnd).lt ((Num.arith rnd).abs ((Num.arith rnd).sub (a.get : Num rnd) b.get)) ((Num.arith rnd).stdMax
        (Num.arith rnd).tol ((Num.arith rnd).mul (Num.arith rnd).rel ((Num.arith rnd).stdMin
          ((Num.arith rnd).add ((Num.arith rnd).abs (a.get : Num rnd)) ((Num.arith rnd).abs b.get)) (Num.arith rnd).max))) := by
    show Fl.lt _ ((Fused.arith rnd fuse).stdMax _ _).get = Fl.lt _ _
    rw [stdMax_get]
    show Fl.lt _ ((Num.arith rnd).stdMax _ (Fl.mul rnd _ ((Fused.arith rnd fuse).stdMin _ _).get)) = _
    rw [stdMin_get]
    rfl
  unfold Arith.nearlyGreater Arith.nearlyLessEqual Arith.nearlyEqual
  rw [key]
  rfl

/-- The pivot step keeps a pivot that is larger than everything below it. -/
theorem pivotStep_keepsF {n : Nat} {u η R : ℚ} (hf : Fine binary64 u η R) {N : Fin n → Fin n → Fused binary64 fuse} {Q : Fin n → Fin n → ℚ}
    (hN : ∀ r c, (N r c).get = .fin (Q r c)) {i : Fin n} {A : ℚ}
    (hbig : 1 / 2 ^ 45 ≤ |Q i i|) (hA : |Q i i| ≤ A) (hR : 8 * A + 2 ≤ R) (hlt : ∀ r, i < r → |Q r i| < |Q i i|) (st : List Nat) :
    pivotStep (Fused.arith binary64 fuse) i.1 (mat N, st) = .ok (mat N, st) := by
  obtain ⟨⟨mx, m⟩, h1, h2⟩ := loop_inv (n := n - i.1) (body := searchBody (Fused.arith binary64 fuse) (mat N) i.1)
    (s := ((0 : Fused binary64 fuse), i.1))
    (fun k t => t.2 = i.1 ∧ (k = 0 → t.1.get = .fin 0) ∧ (0 < k → t.1.get = .fin |Q i i|)) ⟨rfl, fun _ => rfl, fun h => absurd h (lt_irrefl _)⟩ (by
      rintro k ⟨mx, m⟩ hk ⟨h2, h3, h4⟩
      have hr : i.1 + k < n := by omega
      simp only at h2 h3 h4
      have ha : ((Fused.arith binary64 fuse).abs (N ⟨i.1 + k, hr⟩ i)).get = .fin |Q ⟨i.1 + k, hr⟩ i| := by
        show Fl.abs (N ⟨i.1 + k, hr⟩ i).get = _
        rw [hN]
        rfl
      obtain ⟨g, hg⟩ := nearlyGreater_fused ((Fused.arith binary64 fuse).abs (N ⟨i.1 + k, hr⟩ i)) mx
      refine ⟨_, by simp only [searchBody, rd2_mat _ hr i.2, Out.ok_bind]; rw [hg]; rfl, ?_⟩
      rw [nearlyGreater_get, ha] at hg
      rcases Nat.eq_zero_or_pos k with rfl | hk0
      · rw [h3 rfl] at hg
        have e : (⟨i.1 + 0, hr⟩ : Fin n) = i := Fin.ext (by simp)
        cases g with
        | true =>
          refine ⟨by simp, fun h => absurd h (by omega), fun _ => ?_⟩
          simp only [if_true]
          rw [ha, e]
        | false =>
          have h5 := near_num hf (abs_nonneg _) le_rfl (by rw [e]; linarith) hg
          rw [e] at h5
          norm_num at h5 hbig
          linarith
      · rw [h4 hk0] at hg
        have h5 := hlt ⟨i.1 + k, hr⟩ (show i.1 < i.1 + k by omega)
        have h6 : (Num.arith binary64).nearlyGreater (fin |Q ⟨i.1 + k, hr⟩ i| : Num binary64) (fin |Q i i|)
            (Num.arith binary64).rel (Num.arith binary64).tol = .ok false := by
          unfold Arith.nearlyGreater Arith.nearlyLessEqual
          rw [show (Num.arith binary64).lt (fin |Q ⟨i.1 + k, hr⟩ i| : Num binary64) (fin |Q i i|) = true from by
            show Fl.lt (.fin _) (.fin _) = true
            simpa [Fl.lt] using h5]
          rfl
        obtain rfl : g = false := Out.ok.inj (hg.symm.trans h6)
        exact ⟨h2, fun h => absurd h (by omega), fun _ => h4 hk0⟩)
  unfold pivotStep
  simp only
  rw [sizeColumn_mat (by have := i.2; omega), h1, Out.ok_bind]
  simp only
  obtain rfl : m = i.1 := h2.1
  rw [if_neg (by simp)]
  rfl

/-! ### The factorisation -/

/-- With and without pivoting the elimination makes the same factors. -/
theorem factorise_heavy_fused {n : Nat} {u η R : ℚ} (hf : Fine binary64 u η R) {tol : Fused binary64 fuse} {t τ A S W : ℚ}
    (htol : tol.get = .fin t) (ht : t ≤ τ) (hτ : 1 / 2 ^ 45 ≤ τ) (hS : τ + n * (6 * u * A + 3 * η * (n * (A + 1))) ≤ S)
    (hA : A ≤ τ * R) (hA0 : 0 ≤ A) (hR : 8 * A + 2 ≤ R) (hW : W + n * (6 * u * A + 3 * η * (n * (A + 1))) ≤ A)
    {N : Fin n → Fin n → Fused binary64 fuse} {B : Fin n → Fin n → ℚ} (hN : ∀ r c, (N r c).get = .fin (B r c)) (h : HeavyColumns S W B 0) :
    ∃ M : Fin n → Fin n → Fused binary64 fuse, ∀ (pivot : Bool) (st : List Nat),
      loop n (factoriseBody (Fused.arith binary64 fuse) pivot tol) (mat N, st, true) = .ok (mat M, st, true) := by
  set E := 6 * u * A + 3 * η * (n * (A + 1)) with hE
  have hu := hf.rounds.u_nonneg
  have hη := hf.rounds.η_nonneg
  have hE0 : 0 ≤ E := by positivity
  have hτ0 : 0 < τ := lt_of_lt_of_le (by positivity) hτ
  have key : ∀ k, k ≤ n → ∃ (K : Fin n → Fin n → Fused binary64 fuse) (M : Fin n → Fin n → ℚ), (∀ r c, (K r c).get = .fin (M r c)) ∧
      HeavyColumns (S - k * E) (W + k * E) M k ∧ ∀ (pivot : Bool) (st : List Nat),
      loop k (factoriseBody (Fused.arith binary64 fuse) pivot tol) (mat N, st, true) = .ok (mat K, st, true) := by
    intro k
    induction k with
    | zero => exact fun _ => ⟨N, B, hN, by simpa using h, fun _ _ => rfl⟩
    | succ i ih =>
      intro hi
      obtain ⟨K, M, hK, h3, h2⟩ := ih (by omega)
      have hin : (i : ℚ) * E ≤ n * E := mul_le_mul_of_nonneg_right (by exact_mod_cast (by omega : i ≤ n)) hE0
      have hSi : τ ≤ S - i * E := by linarith
      have hWi : W + i * E ≤ A := by linarith
      obtain ⟨M', e1, h4⟩ := heavy_column_works (works_fused (fuse := fuse) hf) (i := ⟨i, hi⟩) hτ0 hSi hA hR hWi hK h3
      have e : S - ((i + 1 : ℕ) : ℚ) * E = S - i * E - E := by push_cast; ring
      have e' : W + ((i + 1 : ℕ) : ℚ) * E = W + i * E + E := by push_cast; ring
      refine ⟨_, M', e1, by rw [e, e']; exact h4, fun pivot st => ?_⟩
      have hd : τ ≤ |M ⟨i, hi⟩ ⟨i, hi⟩| := hSi.trans (HeavyColumns.pivot (i := ⟨i, hi⟩) h3)
      have hdA : |M ⟨i, hi⟩ ⟨i, hi⟩| ≤ A := by
        have h5 := h3.top ⟨i, hi⟩ le_rfl
        have h6 := Finset.single_le_sum (f := fun r => |M r ⟨i, hi⟩|) (fun _ _ => abs_nonneg _)
          (show (⟨i, hi⟩ : Fin n) ∈ columns n i from mem_columns.mpr le_rfl)
        linarith
      have hlt : (Fused.arith binary64 fuse).lt ((Fused.arith binary64 fuse).abs (K ⟨i, hi⟩ ⟨i, hi⟩)) tol = false := by
        rw [(works_fused (fuse := fuse) hf).below (hK _ _) htol]
        simpa using ht.trans hd
      have hp : (if pivot then pivotStep (Fused.arith binary64 fuse) i (mat K, st) else pure (mat K, st)) = .ok (mat K, st) := by
        cases pivot
        · rfl
        · exact pivotStep_keepsF hf hK (i := ⟨i, hi⟩) (hτ.trans hd) hdA hR
            (fun r hr => HeavyColumns.below (i := ⟨i, hi⟩) (hτ0.trans_le hSi) h3 hr) st
      simp only [loop, h2, Out.ok_bind]
      unfold factoriseBody
      simp only [if_true]
      rw [hp]
      simp only [Out.ok_bind, rd2_mat _ hi hi, hlt, mat_length, Bool.false_eq_true, if_false]
      have := eliminate_ok K ⟨i, hi⟩
      simp only at this
      rw [this]
      rfl
  obtain ⟨K, _, -, -, h2⟩ := key n le_rfl
  exact ⟨K, h2⟩

/-- C230: for a matrix of doubles whose columns are dominated by the diagonal, pivoting interchanges no equations, whatever operations
are fused: both direct solvers accept it, keep the same factors, and give the same results for all right hand sides, initial vectors and
in place. -/
theorem c230_same {n : Nat} {t τ A S : ℚ} (ht : t ≤ τ) (hτ : 1 / 2 ^ 45 ≤ τ) (hA : A ≤ 2 ^ 900) (N : Fin n → Fin n → Fused binary64 fuse)
    (B : Fin n → Fin n → ℚ) (hB : ∀ r c, (N r c).get = .fin (B r c))
    (hcol : ∀ c, ∑ r, |B r c| ≤ A) (hdom : ∀ c, S + ∑ r ∈ Finset.univ.erase c, |B r c| ≤ |B c c|) (hS : τ + n * A / 2 ^ 49 ≤ S)
    (s1 s2 : Lu (Fused binary64 fuse)) (h1 : s1.tol.get = .fin t) (h2 : s2.tol = s1.tol) :
    ∃ s1' s2', factorise (Fused.arith binary64 fuse) true s1 (mat N) = .ok (s1', true) ∧
      factorise (Fused.arith binary64 fuse) false s2 (mat N) = .ok (s2', true) ∧
      s1'.piv = List.range n ∧ s1'.lu = s2'.lu ∧ ∀ x0 b, Lu.solve true s1' x0 b = Lu.solve false s2' x0 b := by
  obtain ⟨M, hM⟩ : ∃ M : Fin n → Fin n → Fused binary64 fuse, ∀ (pivot : Bool) (st : List Nat),
      loop n (factoriseBody (Fused.arith binary64 fuse) pivot s1.tol) (mat N, st, true) = .ok (mat M, st, true) := by
    rcases Nat.eq_zero_or_pos n with rfl | hn0
    · exact ⟨N, fun _ _ => rfl⟩
    obtain ⟨k1, k2, k3, k4, k5, k6⟩ := column_room hn0 hτ hA hcol hdom hS
    exact factorise_heavy_fused fine_binary64 (t := t) (τ := τ) (A := 2 * A) (S := S) (W := A) (B := B) h1 ht hτ k1 k2 k3 k4 k5 hB k6
  have e1 : factorise (Fused.arith binary64 fuse) true s1 (mat N) =
      .ok ({ s1 with factorised := true, lu := mat M, piv := List.range n }, true) := by
    unfold factorise
    rw [mat_length]
    simp only [if_true]
    rw [sizeColumn_mat id, hM true]
    rfl
  have e2 : factorise (Fused.arith binary64 fuse) false s2 (mat N) = .ok ({ s2 with factorised := true, lu := mat M }, true) := by
    unfold factorise
    rw [mat_length, h2]
    simp only [Bool.false_eq_true, if_false]
    rw [hM false]
    rfl
  exact ⟨_, _, e1, e2, rfl, rfl, fun x0 b => solve_range _ _ rfl rfl (mat_length _) rfl x0 b⟩

/-- C230: if the rows are dominated as well, the pivoting solver has finite solutions close to the exact ones, whatever operations are
fused. -/
theorem c230_solved {n : Nat} {t A S : ℚ} (ht : 1 / 2 ^ 100 ≤ t) (hA : A ≤ 2 ^ 400) (N : Fin n → Fin n → Fused binary64 fuse)
    (B : Fin n → Fin n → ℚ) (hB : ∀ r c, (N r c).get = .fin (B r c)) (hrow : ∀ r, ∑ c, |B r c| ≤ A)
    (hdom : ∀ r, S + ∑ c ∈ Finset.univ.erase r, |B r c| ≤ |B r r|) (hcol : ∀ c, ∑ r, |B r c| ≤ A)
    (hdomc : ∀ c, S + ∑ r ∈ Finset.univ.erase c, |B r c| ≤ |B c c|) (hS : max t (1 / 2 ^ 45) + n * A / 2 ^ 47 ≤ S)
    (s : Lu (Fused binary64 fuse)) (hs : s.tol.get = .fin t) :
    ∃ s', factorise (Fused.arith binary64 fuse) true s (mat N) = .ok (s', true) ∧
    ∀ (b : Fin n → Fused binary64 fuse) (d : Fin n → ℚ) (D : ℚ) (x0 : List (Fused binary64 fuse)), (∀ r, (b r).get = .fin (d r)) →
      (∀ r, |d r| ≤ D) → D ≤ 2 ^ 400 →
      ∃ (W : Fin n → Fused binary64 fuse) (x : Fin n → ℚ), Lu.solve true s' x0 (some (vec b)) = .ok (vec W, true, 1) ∧
      (∀ r, (W r).get = .fin (x r)) ∧ (∀ r, |x r| ≤ 8 * (D + A / 2 ^ 900) / S) ∧
      ∀ y, Solves B y d → ∀ r, |x r - y r| ≤ n ^ 2 * (A / S) * (D / S / 2 ^ 44 + 1 / 2 ^ 440) := by
  have hS9 : max t (1 / 2 ^ 45) + n * A / 2 ^ 49 ≤ S := by
    rcases Nat.eq_zero_or_pos n with rfl | hn0
    · simpa using hS
    · have h1 : 0 ≤ ∑ c, |B ⟨0, hn0⟩ c| := Finset.sum_nonneg fun _ _ => abs_nonneg _
      have h2 : 0 ≤ n * A := mul_nonneg (by positivity) (h1.trans (hrow _))
      have h3 : n * A / 2 ^ 49 ≤ n * A / 2 ^ 47 := div_le_div_of_nonneg_left h2 (by positivity) (by norm_num)
      linarith
  obtain ⟨s1, s2, h1, h2, -, -, h3⟩ := c230_same (le_max_left t (1 / 2 ^ 45)) (le_max_right _ _)
    (hA.trans (pow_le_pow_right₀ (by norm_num) (by norm_num))) N B hB hcol hdomc hS9 s s hs rfl
  obtain ⟨s3, k1, k2⟩ := c223_solved ht hA N B hB hrow hdom (by linarith [le_max_left t (1 / 2 ^ 45)]) s hs
  obtain rfl := (Prod.mk.inj (Out.ok.inj (h2.symm.trans k1))).1
  exact ⟨s1, h1, fun b d D x0 hb hD hD' => by rw [h3]; exact k2 b d D x0 hb hD hD'⟩

/-- The matrices of C208 meet the hypotheses, whichever products are fused: one whose rows are not dominated, and one with dominant rows
and columns, for which the solution is accurate. -/
example (fuse : Hist → Hist → Hist → Bool) (l : Fin 2 → Fin 2 → Nat) :
    ∃ s1' s2', factorise (Fused.arith binary64 fuse) true ⟨false, (Fused.arith binary64 fuse).tol, [], []⟩
        (mat fun r c => inp (l r c) (tallColumns r c)) = .ok (s1', true) ∧
      factorise (Fused.arith binary64 fuse) false ⟨false, (Fused.arith binary64 fuse).tol, [], []⟩
        (mat fun r c => inp (l r c) (tallColumns r c)) = .ok (s2', true) ∧
      s1'.piv = List.range 2 ∧ s1'.lu = s2'.lu ∧ ∀ x0 b, Lu.solve true s1' x0 b = Lu.solve false s2' x0 b :=
  c230_same (t := 64 * (1 / 2 ^ 52)) (τ := 1 / 2 ^ 45) (A := 17) (S := 1) (by norm_num) le_rfl (by decide +kernel) _ tallColumns
    (fun _ _ => rfl) (by decide +kernel) (by decide +kernel) (by norm_num) _ _ rfl rfl

example (fuse : Hist → Hist → Hist → Bool) (b : Fin 3 → Fused binary64 fuse) (hb : ∀ r, (b r).get = .fin 1) :
    ∃ (s' : Lu (Fused binary64 fuse)) (W : Fin 3 → Fused binary64 fuse) (x : Fin 3 → ℚ),
      factorise (Fused.arith binary64 fuse) true ⟨false, (Fused.arith binary64 fuse).tol, [], []⟩
        (mat fun r c : Fin 3 => inp (3 * r.1 + c.1) (mixedSigns r c)) = .ok (s', true) ∧
      Lu.solve true s' [] (some (vec b)) = .ok (vec W, true, 1) ∧ (∀ r, (W r).get = .fin (x r)) ∧
      ∀ y, Solves mixedSigns y (fun _ => 1) → ∀ r, |x r - y r| ≤ 1 / 2 ^ 37 := by
  obtain ⟨s', h1, h2⟩ := c230_solved (fuse := fuse) (n := 3) (t := 64 * (1 / 2 ^ 52)) (A := 7) (S := 1) (by norm_num) (by decide +kernel)
    (fun r c : Fin 3 => inp (3 * r.1 + c.1) (mixedSigns r c)) mixedSigns (fun _ _ => rfl) (by decide +kernel) (by decide +kernel)
    (by decide +kernel) (by decide +kernel) (by norm_num) ⟨false, (Fused.arith binary64 fuse).tol, [], []⟩ rfl
  obtain ⟨W, x, h3, h4, -, h5⟩ := h2 b (fun _ => 1) 1 [] hb (by simp) (by decide +kernel)
  refine ⟨s', W, x, h1, h3, h4, fun y hy r => (h5 y hy r).trans ?_⟩
  decide +kernel

end Disa.Props
