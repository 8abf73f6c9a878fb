import Verif.Props.LuMonotone
import Verif.Props.LuAccurateFused
import Verif.Props.FusedExact

/-!
# Property C231: the direct solver keeps the order of right hand sides, whatever operations are fused
-/

namespace Disa.Props

open Disa Spec Dense Num Lu Fused

variable {fuse : Hist → Hist → Hist → Bool}

/-! ### Operations -/

theorem operand_get {a b : Fused binary64 fuse} {x y : ℚ} (ha : a.get = .fin x) (hb : b.get = .fin y) (h : Hist) :
    (a * b).operand h = (if fuse h a.hist b.hist then Fl.fin else binary64) (x * y) := by
  show Fl.mul (if fuse h a.hist b.hist then .fin else binary64) a.get b.get = _
  rw [ha, hb]
  rfl

/-- A product in a difference, rounded or not. -/
theorem product_fused {u η R : ℚ} (hf : Fine binary64 u η R) {a b : Fused binary64 fuse} {x y : ℚ} (ha : a.get = .fin x)
    (hb : b.get = .fin y) (h : Hist) (hR : |x * y| ≤ R) :
    ∃ p, (a * b).operand h = .fin p ∧ |p - x * y| ≤ u * |x * y| + η ∧ (0 ≤ x * y → 0 ≤ p) := by
  rw [operand_get ha hb]
  split
  · have hu := hf.rounds.u_nonneg
    have hη := hf.rounds.η_nonneg
    exact ⟨x * y, rfl, by rw [sub_self, abs_zero]; positivity, id⟩
  · obtain ⟨p, hp⟩ := hf.range _ hR
    exact ⟨p, hp, hf.rounds.error _ _ hp, fun h => binary64_fin_mono h binary64_zero hp⟩

theorem sub_get {v w : Fused binary64 fuse} {x p q : ℚ} (hv : v.get = .fin x) (hw : w.operand v.hist = .fin p)
    (h : binary64 (x - p) = .fin q) : (v - w).get = .fin q := by
  show Fl.sub binary64 v.get (w.operand v.hist) = _
  rw [hv, hw]
  exact sub64 h

theorem div_get {v w : Fused binary64 fuse} {x y q : ℚ} (hv : v.get = .fin x) (hw : w.get = .fin y) (hy : y ≠ 0)
    (h : binary64 (x / y) = .fin q) : (v / w).get = .fin q := by
  show Fl.div binary64 v.get w.get = _
  rw [hv, hw]
  exact div64 hy h

/-! ### Sweeps -/

/-- Three finite numbers that were computed in the same way, the second between the others. -/
def BetweenF (a b c : Fused binary64 fuse) : Prop :=
  ∃ l q h : ℚ, a.get = .fin l ∧ b.get = .fin q ∧ c.get = .fin h ∧ l ≤ q ∧ q ≤ h ∧ b.hist = a.hist ∧ c.hist = a.hist

/-- A number is finite. -/
def FinF (a : Fused binary64 fuse) : Prop := ∃ q : ℚ, a.get = .fin q

theorem FinF.left {a b : Fused binary64 fuse} (h : FinF (a - b)) : FinF a := by
  obtain ⟨q, hq⟩ := h
  obtain ⟨x, _, e, -⟩ := sub_fin (rnd := binary64) (a := a.get) (b := b.operand a.hist) hq
  exact ⟨x, e⟩

theorem BetweenF.sub {a b c m x y z : Fused binary64 fuse} {k : ℚ} (hk : m.get = .fin k) (hm : k ≤ 0) (h : BetweenF a b c)
    (h' : BetweenF x y z) (h1 : FinF (a - m * x)) (h2 : FinF (c - m * z)) : BetweenF (a - m * x) (b - m * y) (c - m * z) := by
  obtain ⟨l, q, r, a1, a2, a3, k1, k2, a4, a5⟩ := h
  obtain ⟨l', q', r', b1, b2, b3, k3, k4, b4, b5⟩ := h'
  obtain ⟨v, hv⟩ := h1
  obtain ⟨w, hw⟩ := h2
  obtain ⟨l1, p1, e1, e2, e3⟩ := sub_fin (rnd := binary64) (a := a.get) (b := (m * x).operand a.hist) hv
  obtain ⟨l2, p2, e4, e5, e6⟩ := sub_fin (rnd := binary64) (a := c.get) (b := (m * z).operand c.hist) hw
  have f1 : l1 = l := by
    rw [a1] at e1
    exact (fin_inj.mp e1).symm
  have f2 : l2 = r := by
    rw [a3] at e4
    exact (fin_inj.mp e4).symm
  subst f1 f2
  rw [operand_get hk b1] at e2
  rw [operand_get hk b3, a5, b5] at e5
  have m1 : k * r' ≤ k * q' := mul_le_mul_of_nonpos_left k4 hm
  have m2 : k * q' ≤ k * l' := mul_le_mul_of_nonpos_left k3 hm
  obtain ⟨p, hp, c1, c2⟩ : ∃ p, (if fuse a.hist m.hist x.hist then Fl.fin else binary64) (k * q') = .fin p ∧ p2 ≤ p ∧ p ≤ p1 := by
    split at e2
    · rename_i hh
      rw [if_pos hh] at e5 ⊢
      cases e2
      cases e5
      exact ⟨_, rfl, m1, m2⟩
    · rename_i hh
      rw [if_neg hh] at e5 ⊢
      obtain ⟨p, hp⟩ := binary64_squeeze m1 m2 e5 e2
      exact ⟨p, hp, binary64_fin_mono m1 e5 hp, binary64_fin_mono m2 hp e2⟩
  have m3 : l1 - p1 ≤ q - p := by linarith
  have m4 : q - p ≤ l2 - p2 := by linarith
  obtain ⟨z', hz⟩ := binary64_squeeze m3 m4 e3 e6
  refine ⟨v, z', w, hv, sub_get a2 ?_ hz, hw, binary64_fin_mono m3 e3 hz, binary64_fin_mono m4 hz e6, ?_, ?_⟩
  · rw [operand_get hk b2, a4, b4]
    exact hp
  · show Hist.op 1 b.hist (.op 2 m.hist y.hist) = .op 1 a.hist (.op 2 m.hist x.hist)
    rw [a4, b4]
  · show Hist.op 1 c.hist (.op 2 m.hist z.hist) = .op 1 a.hist (.op 2 m.hist x.hist)
    rw [a5, b5]

theorem less_finF {n : Nat} {v : Fused binary64 fuse} {f : Fin n → Fused binary64 fuse} {a k : Nat} (h : FinF (less v f a k)) : FinF v := by
  induction k with
  | zero => exact h
  | succ k ih =>
    unfold less at h
    split at h
    · exact ih h.left
    · exact ih h

theorem less_betweenF {n : Nat} {v1 v2 v3 : Fused binary64 fuse} {N : Fin n → Fused binary64 fuse} {m : Fin n → ℚ}
    (hN : ∀ c, (N c).get = .fin (m c)) {y1 y2 y3 : Fin n → Fused binary64 fuse} {a k : Nat} (hv : BetweenF v1 v2 v3)
    (hy : ∀ c : Fin n, a ≤ c.1 → c.1 < a + k → m c ≤ 0 ∧ BetweenF (y1 c) (y2 c) (y3 c))
    (h1 : FinF (less v1 (fun c => N c * y1 c) a k)) (h3 : FinF (less v3 (fun c => N c * y3 c) a k)) :
    BetweenF (less v1 (fun c => N c * y1 c) a k) (less v2 (fun c => N c * y2 c) a k) (less v3 (fun c => N c * y3 c) a k) := by
  induction k with
  | zero => exact hv
  | succ k ih =>
    unfold less at h1 h3 ⊢
    by_cases hk : a + k < n
    · simp only [hk, dif_pos] at h1 h3 ⊢
      obtain ⟨g1, g2⟩ := hy ⟨a + k, hk⟩ (by simp) (by simp)
      exact BetweenF.sub (hN _) g1 (ih (fun c q1 q2 => hy c q1 (by omega)) h1.left h3.left) g2 h1 h3
    · simp only [hk, dif_neg, not_false_iff] at h1 h3 ⊢
      exact ih (fun c q1 q2 => hy c q1 (by omega)) h1 h3

/-- The sweeps with factors whose elements off the diagonal are not positive, and which have a positive diagonal, keep the
order of the right hand sides. -/
theorem sweeps_betweenF {n : Nat} {N : Fin n → Fin n → Fused binary64 fuse} {M : Fin n → Fin n → ℚ} (hN : ∀ r c, (N r c).get = .fin (M r c))
    (hd : ∀ r, 0 < M r r) (ho : ∀ r c, r ≠ c → M r c ≤ 0)
    {b1 b2 b3 : Fin n → Fused binary64 fuse} (hb : ∀ r, BetweenF (b1 r) (b2 r) (b3 r)) {y1 y2 y3 x1 x2 x3 : Fin n → Fused binary64 fuse}
    (e1 : ∀ r, y1 r = less (b1 r) (fun c => N r c * y1 c) 0 r.1)
    (e2 : ∀ r, y2 r = less (b2 r) (fun c => N r c * y2 c) 0 r.1)
    (e3 : ∀ r, y3 r = less (b3 r) (fun c => N r c * y3 c) 0 r.1)
    (f1 : ∀ r, x1 r = less (y1 r) (fun c => N r c * x1 c) (r.1 + 1) (n - (r.1 + 1)) / N r r)
    (f2 : ∀ r, x2 r = less (y2 r) (fun c => N r c * x2 c) (r.1 + 1) (n - (r.1 + 1)) / N r r)
    (f3 : ∀ r, x3 r = less (y3 r) (fun c => N r c * x3 c) (r.1 + 1) (n - (r.1 + 1)) / N r r)
    (h1 : ∀ r, FinF (x1 r)) (h3 : ∀ r, FinF (x3 r)) (r : Fin n) : BetweenF (x1 r) (x2 r) (x3 r) := by
  have g1 : ∀ r, FinF (less (y1 r) (fun c => N r c * x1 c) (r.1 + 1) (n - (r.1 + 1))) := by
    intro r
    obtain ⟨q, hq⟩ := h1 r
    rw [f1 r] at hq
    have hq' : Fl.div binary64 (less (y1 r) (fun c => N r c * x1 c) (r.1 + 1) (n - (r.1 + 1))).get (N r r).get = .fin q := hq
    rw [hN] at hq'
    obtain ⟨x, e, -⟩ := div_fin (rnd := binary64) (hd r).ne' hq'
    exact ⟨x, e⟩
  have g3 : ∀ r, FinF (less (y3 r) (fun c => N r c * x3 c) (r.1 + 1) (n - (r.1 + 1))) := by
    intro r
    obtain ⟨q, hq⟩ := h3 r
    rw [f3 r] at hq
    have hq' : Fl.div binary64 (less (y3 r) (fun c => N r c * x3 c) (r.1 + 1) (n - (r.1 + 1))).get (N r r).get = .fin q := hq
    rw [hN] at hq'
    obtain ⟨x, e, -⟩ := div_fin (rnd := binary64) (hd r).ne' hq'
    exact ⟨x, e⟩
  have hy : ∀ k, ∀ r : Fin n, r.1 = k → BetweenF (y1 r) (y2 r) (y3 r) := by
    intro k
    induction k using Nat.strong_induction_on with
    | _ k ih =>
      rintro r rfl
      have s1 := less_finF (g1 r)
      have s3 := less_finF (g3 r)
      rw [e1 r] at s1
      rw [e3 r] at s3
      rw [e1 r, e2 r, e3 r]
      exact less_betweenF (hN r) (hb r) (fun c _ hc => ⟨ho r c (by rintro rfl; omega), ih c.1 (by omega) c rfl⟩) s1 s3
  have hx : ∀ k, ∀ r : Fin n, n - 1 - r.1 = k → BetweenF (x1 r) (x2 r) (x3 r) := by
    intro k
    induction k using Nat.strong_induction_on with
    | _ k ih =>
      rintro r rfl
      obtain ⟨l, q, u, a1, a2, a3, k1, k2, a4, a5⟩ := less_betweenF (hN r) (hy r.1 r rfl) (fun c hc hc' =>
        ⟨ho r c (by rintro rfl; omega), ih (n - 1 - c.1) (by omega) c rfl⟩) (g1 r) (g3 r)
      obtain ⟨v, hv⟩ := h1 r
      obtain ⟨w, hw⟩ := h3 r
      have v' : Fl.div binary64 (less (y1 r) (fun c => N r c * x1 c) (r.1 + 1) (n - (r.1 + 1))).get (N r r).get = .fin v := by
        rw [f1 r] at hv
        exact hv
      have w' : Fl.div binary64 (less (y3 r) (fun c => N r c * x3 c) (r.1 + 1) (n - (r.1 + 1))).get (N r r).get = .fin w := by
        rw [f3 r] at hw
        exact hw
      rw [a1, hN] at v'
      rw [a3, hN] at w'
      obtain ⟨_, c1, c2⟩ := div_fin (rnd := binary64) (hd r).ne' v'
      obtain ⟨_, c3, c4⟩ := div_fin (rnd := binary64) (hd r).ne' w'
      obtain rfl := fin_inj.mp c1
      obtain rfl := fin_inj.mp c3
      have m1 : l / M r r ≤ q / M r r := div_le_div_of_nonneg_right k1 (hd r).le
      have m2 : q / M r r ≤ u / M r r := div_le_div_of_nonneg_right k2 (hd r).le
      obtain ⟨z, hz⟩ := binary64_squeeze m1 m2 c2 c4
      refine ⟨v, z, w, hv, ?_, hw, binary64_fin_mono m1 c2 hz, binary64_fin_mono m2 hz c4, ?_, ?_⟩
      · rw [f2 r]
        exact div_get a2 (hN r r) (hd r).ne' hz
      · rw [f2 r, f1 r]
        show Hist.op 3 _ (N r r).hist = .op 3 _ (N r r).hist
        rw [a4]
      · rw [f3 r, f1 r]
        show Hist.op 3 _ (N r r).hist = .op 3 _ (N r r).hist
        rw [a5]
  exact hx _ r rfl

/-! ### Factors -/

theorem step_rowF {n : Nat} {u η R : ℚ} (hf : Fine binary64 u η R) {t A S : ℚ} (ht : 0 < t) (hS : t ≤ S) (hA : A ≤ t * R)
    (hR : 8 * A + 1 ≤ R) {N : Fin n → Fin n → Fused binary64 fuse} {Q : Fin n → Fin n → ℚ} (hN : ∀ r c, (N r c).get = .fin (Q r c))
    {i : Fin n} (h : Dominated t A S Q i.1) {r : Fin n} (hr : i < r) :
    ∃ (l : ℚ) (q : Fin n → ℚ), (N r i / N i i).get = .fin l ∧
      (∀ c, i < c → (N r c - N r i / N i i * N i c).get = .fin (q c)) ∧ l ≤ 0 ∧
      (∀ c, i < c → r ≠ c → q c ≤ 0) ∧ q r ≤ Q r r ∧ binary64 (q r) = .fin (q r) ∧
      S - (6 * u * A + 3 * η * (A + n)) ≤ ∑ c ∈ Finset.univ.filter fun c : Fin n => i.1 + 1 ≤ c.1, q c := by
  have hu := hf.rounds.u_nonneg
  have hη := hf.rounds.η_nonneg
  have hus : u ≤ 1 / 8 := hf.u_small.trans (by norm_num)
  have hηs : η ≤ 1 := hf.η_small.trans (by norm_num)
  have h0 := binary64_zero
  have hri : i.1 ≤ r.1 := le_of_lt hr
  set T := Finset.univ.filter fun c : Fin n => i.1 + 1 ≤ c.1 with hT
  have hsi := h.rest i le_rfl
  have hsr := h.rest r hri
  have hai := row_abs (Finset.univ.filter fun c : Fin n => i.1 ≤ c.1) (r := i) (by simp) (h.off i)
  have har := row_abs (Finset.univ.filter fun c : Fin n => i.1 ≤ c.1) (r := r) (by simpa using hri) (h.off r)
  have hsplit := Finset.add_sum_erase (Finset.univ.filter fun c : Fin n => i.1 ≤ c.1) (Q r) (a := i) (by simp)
  have hspliti := Finset.add_sum_erase (Finset.univ.filter fun c : Fin n => i.1 ≤ c.1) (Q i) (a := i) (by simp)
  have hsplita := Finset.add_sum_erase (Finset.univ.filter fun c : Fin n => i.1 ≤ c.1) (fun c => |Q r c|) (a := i) (by simp)
  have hsplitr := Finset.add_sum_erase (Finset.univ.filter fun c : Fin n => i.1 ≤ c.1) (fun c => |Q r c|) (a := r)
    (by simpa using hri)
  rw [above_erase, ← hT] at hai hsplit hspliti hsplita
  generalize ∑ c ∈ Finset.univ.filter (fun c : Fin n => i.1 ≤ c.1), Q r c = sr at *
  generalize ∑ c ∈ Finset.univ.filter (fun c : Fin n => i.1 ≤ c.1), Q i c = si at *
  have hpos : 0 ≤ ∑ c ∈ (Finset.univ.filter fun c : Fin n => i.1 ≤ c.1).erase r, |Q r c| :=
    Finset.sum_nonneg fun _ _ => abs_nonneg _
  have hposi : 0 ≤ ∑ c ∈ T, |Q i c| := Finset.sum_nonneg fun _ _ => abs_nonneg _
  have hd : t ≤ Q i i := by linarith
  have hd0 : 0 < Q i i := ht.trans_le hd
  have hdA := h.top i le_rfl
  have hrA := h.top r hri
  have hrr : 0 < Q r r := by linarith
  have ha0 : Q r i ≤ 0 := h.off r i (ne_of_gt hr)
  have hX : ∑ c ∈ T, |Q i c| ≤ Q i i := by linarith
  have hm : ∑ c ∈ T, |Q r c| ≤ 2 * A := by
    have := abs_nonneg (Q r i)
    rw [abs_of_pos hrr] at hsplitr
    linarith
  have hrow : ∀ c, i.1 ≤ c.1 → |Q r c| ≤ A := by
    intro c hc
    by_cases hrc : c = r
    · subst hrc
      rwa [abs_of_pos hrr]
    · have := Finset.single_le_sum (f := fun c => |Q r c|) (s := (Finset.univ.filter fun c : Fin n => i.1 ≤ c.1).erase r)
        (fun _ _ => abs_nonneg _) (Finset.mem_erase.mpr ⟨hrc, Finset.mem_filter.mpr ⟨Finset.mem_univ _, hc⟩⟩)
      linarith
  have hari := hrow i le_rfl
  have hA0 : 0 < A := hd0.trans_le hdA
  -- the multiplier
  have hquot : |Q r i / Q i i| ≤ R := by
    rw [abs_div, abs_of_pos hd0, div_le_iff₀ hd0]
    have hR0 : 0 ≤ R := by linarith
    have := mul_le_mul_of_nonneg_right hd hR0
    linarith
  obtain ⟨l, hl⟩ := hf.range _ hquot
  have hl0 : l ≤ 0 := binary64_fin_mono (div_nonpos_of_nonpos_of_nonneg ha0 hd0.le) hl h0
  have hle := hf.rounds.error _ _ hl
  have hlabs : |l| * Q i i ≤ 3 * A := by
    have h1 : |l| ≤ |Q r i / Q i i| + (u * |Q r i / Q i i| + η) := by
      have := abs_add_le (l - Q r i / Q i i) (Q r i / Q i i)
      rw [sub_add_cancel] at this
      linarith
    have h2 := mul_le_mul_of_nonneg_right h1 hd0.le
    have h3 : |Q r i / Q i i| * Q i i = |Q r i| := by rw [abs_div, abs_of_pos hd0, div_mul_cancel₀ _ hd0.ne']
    have h4 : u * |Q r i| ≤ 1 * A := mul_le_mul (by linarith) hari (abs_nonneg _) (by norm_num)
    have h5 : η * Q i i ≤ 1 * A := mul_le_mul hηs hdA hd0.le (by norm_num)
    nlinarith
  have hw : ∀ c, i < c → |l * Q i c| ≤ 3 * A := by
    intro c hc
    have h1 : |Q i c| ≤ Q i i := by
      have := Finset.single_le_sum (f := fun c => |Q i c|) (fun _ _ => abs_nonneg _)
        (show c ∈ T from Finset.mem_filter.mpr ⟨Finset.mem_univ _, hc⟩)
      linarith
    rw [abs_mul]
    exact (mul_le_mul_of_nonneg_left h1 (abs_nonneg _)).trans hlabs
  have hlN : (N r i / N i i).get = .fin l := div_get (hN r i) (hN i i) hd0.ne' hl
  have hp : ∀ c, ∃ p, i < c → (N r i / N i i * N i c).operand (N r c).hist = .fin p ∧ |p - l * Q i c| ≤ u * |l * Q i c| + η ∧
      (0 ≤ l * Q i c → 0 ≤ p) := by
    intro c
    by_cases hc : i < c
    · obtain ⟨p, hp⟩ := product_fused hf hlN (hN i c) (N r c).hist ((hw c hc).trans (by linarith))
      exact ⟨p, fun _ => hp⟩
    · exact ⟨0, fun h => absurd h hc⟩
  choose p hp using hp
  have hp0 : ∀ c, i < c → 0 ≤ p c := fun c hc =>
    (hp c hc).2.2 (mul_nonneg_of_nonpos_of_nonpos hl0 (h.off i c (ne_of_lt hc)))
  have hpA : ∀ c, i < c → |p c| ≤ 5 * A + 1 := by
    intro c hc
    have h1 := (hp c hc).2.1
    have h2 := abs_add_le (p c - l * Q i c) (l * Q i c)
    rw [sub_add_cancel] at h2
    have h3 := hw c hc
    have h4 : u * |l * Q i c| ≤ 1 / 8 * (3 * A) := mul_le_mul hus h3 (abs_nonneg _) (by norm_num)
    linarith
  have hq : ∀ c, ∃ q, i < c → binary64 (Q r c - p c) = .fin q := by
    intro c
    by_cases hc : i < c
    · obtain ⟨q, hq⟩ := hf.range (Q r c - p c) (by
        have h1 := abs_sub (Q r c) (p c)
        have h2 := hrow c (le_of_lt hc)
        have h3 := hpA c hc
        linarith)
      exact ⟨q, fun _ => hq⟩
    · exact ⟨0, fun h => absurd h hc⟩
  choose q hq using hq
  refine ⟨l, q, hlN, fun c hc => ?_, hl0, fun c hc hrc => ?_, ?_, binary64_idem (hq r hr), ?_⟩
  · exact sub_get (hN r c) (hp c hc).1 (hq c hc)
  · exact binary64_fin_mono (by have := h.off r c hrc; have := hp0 c hc; linarith) (hq c hc) h0
  · exact binary64_fin_mono (by have := hp0 r hr; linarith) (hq r hr) (h.double r hri)
  · have hT' : ∀ c ∈ T, i < c := fun c hc => by
      rw [hT] at hc
      simpa using hc
    have hcard : (T.card : ℚ) ≤ n := by
      have := Finset.card_le_univ T
      rw [Fintype.card_fin] at this
      exact_mod_cast this
    have key := row_loss T (m := Q r) (q := q) (w := Q i) (p := p) hu hus hη hd0 hle
      (fun c hc => (hp c (hT' c hc)).2.1) (fun c hc => hf.rounds.error _ _ (hq c (hT' c hc))) hX hari hdA hm
      hcard
    have e1 : ∑ c ∈ T, Q r c = sr - Q r i := by linarith
    have e2 : ∑ c ∈ T, Q i c = si - Q i i := by linarith
    rw [e1, e2] at key
    have e3 : Q r i / Q i i * (si - Q i i) = Q r i / Q i i * si - Q r i := by field_simp
    have e4 : Q r i / Q i i * si ≤ 0 := mul_nonpos_of_nonpos_of_nonneg (div_nonpos_of_nonpos_of_nonneg ha0 hd0.le) (by linarith)
    rw [e3] at key
    linarith

theorem step_dominatedF {n : Nat} {u η R : ℚ} (hf : Fine binary64 u η R) {t A S : ℚ} (ht : 0 < t) (hS : t ≤ S) (hA : A ≤ t * R)
    (hR : 8 * A + 1 ≤ R) {N : Fin n → Fin n → Fused binary64 fuse} {Q : Fin n → Fin n → ℚ} (hN : ∀ r c, (N r c).get = .fin (Q r c))
    {i : Fin n} (h : Dominated t A S Q i.1) :
    ∃ Q' : Fin n → Fin n → ℚ, (∀ r c, (elim N i r c).get = .fin (Q' r c)) ∧
      Dominated t A (S - (6 * u * A + 3 * η * (A + n))) Q' (i.1 + 1) := by
  have hrow : ∀ r, ∃ (l : ℚ) (q : Fin n → ℚ), i < r → (N r i / N i i).get = .fin l ∧
      (∀ c, i < c → (N r c - N r i / N i i * N i c).get = .fin (q c)) ∧ l ≤ 0 ∧
      (∀ c, i < c → r ≠ c → q c ≤ 0) ∧ q r ≤ Q r r ∧ binary64 (q r) = .fin (q r) ∧
      S - (6 * u * A + 3 * η * (A + n)) ≤ ∑ c ∈ Finset.univ.filter fun c : Fin n => i.1 + 1 ≤ c.1, q c := by
    intro r
    by_cases hr : i < r
    · obtain ⟨l, q, h1⟩ := step_rowF hf ht hS hA hR hN h hr
      exact ⟨l, q, fun _ => h1⟩
    · exact ⟨0, fun _ => 0, fun h => absurd h hr⟩
  choose l q hlq using hrow
  refine ⟨fun r c => if i < r then (if c = i then l r else if i < c then q r c else Q r c) else Q r c, ?_, ?_⟩
  · intro r c
    unfold elim
    by_cases hr : i < r
    · obtain ⟨h1, h2, -⟩ := hlq r hr
      simp only [hr, if_true]
      by_cases hc : c = i
      · simp only [hc, if_true]
        exact h1
      · simp only [hc, if_false]
        by_cases hc' : i < c
        · simp only [hc', if_true]
          exact h2 c hc'
        · simp only [hc', if_false]
          exact hN r c
    · simp only [hr, if_false]
      exact hN r c
  · constructor
    · intro r c hrc
      by_cases hr : i < r
      · obtain ⟨-, -, h3, h4, -⟩ := hlq r hr
        simp only [hr, if_true]
        split
        · exact h3
        · split
          · rename_i hc
            exact h4 c hc hrc
          · exact h.off r c hrc
      · simp only [hr, if_false]
        exact h.off r c hrc
    · intro r hr
      have : ¬ i < r := fun h => by have : i.1 < r.1 := h; omega
      simp only [this, if_false]
      by_cases hri : r.1 < i.1
      · exact h.done r hri
      · obtain rfl : r = i := Fin.ext (by omega)
        have h1 := h.rest r le_rfl
        have h2 := row_abs (Finset.univ.filter fun c : Fin n => r.1 ≤ c.1) (r := r) (by simp) (h.off r)
        have h3 : 0 ≤ ∑ c ∈ (Finset.univ.filter fun c : Fin n => r.1 ≤ c.1).erase r, |Q r c| :=
          Finset.sum_nonneg fun _ _ => abs_nonneg _
        linarith
    · intro r hr
      have hir : i < r := hr
      obtain ⟨-, -, -, -, -, -, h7⟩ := hlq r hir
      refine h7.trans (le_of_eq (Finset.sum_congr rfl fun c hc => ?_))
      have hc' : i < c := by simpa using hc
      simp only [hir, if_true, hc', ne_of_gt hc', if_false]
    · intro r hr
      have hir : i < r := hr
      obtain ⟨-, -, -, -, h5, -⟩ := hlq r hir
      simp only [hir, if_true, ne_of_gt hir, if_false]
      exact h5.trans (h.top r (by omega))
    · intro r hr
      have hir : i < r := hr
      obtain ⟨-, -, -, -, -, h6, -⟩ := hlq r hir
      simp only [hir, if_true, ne_of_gt hir, if_false]
      exact h6

/-- The factorisation of a dominant matrix with nonpositive elements off the diagonal. -/
theorem factorise_dominatedF {n : Nat} {u η R : ℚ} (hf : Fine binary64 u η R) {t A S : ℚ} (ht : 0 < t)
    (hS : t + n * (6 * u * A + 3 * η * (A + n)) ≤ S) (hA : A ≤ t * R) (hA0 : 0 ≤ A)
    (hR : 8 * A + 1 ≤ R) {N : Fin n → Fin n → Fused binary64 fuse} {B : Fin n → Fin n → ℚ} (hN : ∀ r c, (N r c).get = .fin (B r c))
    (h : Dominated t A S B 0) (s : Lu (Fused binary64 fuse)) (hs : s.tol.get = .fin t) :
    ∃ (K : Fin n → Fin n → Fused binary64 fuse) (M : Fin n → Fin n → ℚ),
      factorise (Fused.arith binary64 fuse) false s (mat N) = .ok ({ s with factorised := true, lu := mat K }, true) ∧
      (∀ r c, (K r c).get = .fin (M r c)) ∧ (∀ r c, r ≠ c → M r c ≤ 0) ∧ ∀ r, t ≤ M r r := by
  set E := 6 * u * A + 3 * η * (A + n) with hE
  have hu := hf.rounds.u_nonneg
  have hη := hf.rounds.η_nonneg
  have hE0 : 0 ≤ E := by positivity
  obtain ⟨_, h2, K, M, rfl, hK, h3⟩ := loop_inv (n := n) (body := factoriseBody (Fused.arith binary64 fuse) false s.tol)
    (s := (mat N, s.piv, true))
    (fun i t' => ∃ (K : Fin n → Fin n → Fused binary64 fuse) (M : Fin n → Fin n → ℚ), t' = (mat K, s.piv, true) ∧
      (∀ r c, (K r c).get = .fin (M r c)) ∧ Dominated t A (S - i * E) M i)
    ⟨N, B, rfl, hN, by simpa using h⟩ (by
      rintro i t' hi ⟨K, M, rfl, hK, h3⟩
      have hin : (i : ℚ) * E ≤ n * E := mul_le_mul_of_nonneg_right (by exact_mod_cast hi.le) hE0
      obtain ⟨M', e1, h4⟩ := step_dominatedF hf (i := ⟨i, hi⟩) ht (S := S - i * E) (by linarith) hA hR hK h3
      refine ⟨_, ?_, _, M', rfl, e1, ?_⟩
      · have hd : t ≤ M ⟨i, hi⟩ ⟨i, hi⟩ := by
          have := h4.done ⟨i, hi⟩ (by simp)
          have h5 := e1 ⟨i, hi⟩ ⟨i, hi⟩
          unfold elim at h5
          rw [if_neg (lt_irrefl _), hK, Fl.fin.injEq] at h5
          rwa [h5]
        have hlt : (Fused.arith binary64 fuse).lt ((Fused.arith binary64 fuse).abs (K ⟨i, hi⟩ ⟨i, hi⟩)) s.tol = false := by
          rw [(works_fused (fuse := fuse) hf).below (hK _ _) hs]
          simpa using hd.trans (le_abs_self _)
        unfold factoriseBody
        simp only [if_true, Bool.false_eq_true, if_false, Out.pure_eq, Out.ok_bind, rd2_mat _ hi hi, hlt, mat_length]
        have := eliminate_ok K ⟨i, hi⟩
        simp only at this
        rw [this]
        rfl
      · have e : S - ((i + 1 : ℕ) : ℚ) * E = S - i * E - E := by push_cast; ring
        rw [e]
        exact h4)
  refine ⟨K, M, ?_, hK, h3.off, fun r => h3.done r r.2⟩
  unfold factorise
  rw [mat_length]
  simp only [Bool.false_eq_true, if_false]
  rw [h2]
  rfl

theorem factorise_dominantF {n : Nat} {t A : ℚ} (ht : 1 / 2 ^ 100 ≤ t) (hn : n ≤ 2 ^ 50) (hA : A ≤ 2 ^ 900)
    {N : Fin n → Fin n → Fused binary64 fuse} {B : Fin n → Fin n → ℚ} (hN : ∀ r c, (N r c).get = .fin (B r c))
    (hd : ∀ r, B r r ≤ A ∧ binary64 (B r r) = .fin (B r r)) (ho : ∀ r c, r ≠ c → B r c ≤ 0)
    (hs : ∀ r, t + n * A / 2 ^ 50 ≤ ∑ c, B r c) (s : Lu (Fused binary64 fuse)) (htol : s.tol.get = .fin t) :
    ∃ (K : Fin n → Fin n → Fused binary64 fuse) (M : Fin n → Fin n → ℚ),
      factorise (Fused.arith binary64 fuse) false s (mat N) = .ok ({ s with factorised := true, lu := mat K }, true) ∧
      (∀ r c, (K r c).get = .fin (M r c)) ∧ (∀ r c, r ≠ c → M r c ≤ 0) ∧ ∀ r, t ≤ M r r := by
  have ht0 : 0 < t := lt_of_lt_of_le (by positivity) ht
  obtain ⟨A', S, h1, h2, h3, h4, h5⟩ := dominant_room ht hn hA hd ho hs
  exact factorise_dominatedF fine_binary64 ht0 h1 h2 h3 h4 hN h5 s htol

/-! ### The property -/

/-- C231: without pivoting, a matrix of doubles with nonpositive elements off the diagonal and positive sums of the rows is accepted,
and the solution rises with the right hand side, whatever operations are fused. -/
theorem c231_between {n : Nat} {t A : ℚ} (ht : 1 / 2 ^ 100 ≤ t) (hn : n ≤ 2 ^ 50) (hA : A ≤ 2 ^ 900)
    (N : Fin n → Fin n → Fused binary64 fuse) (B : Fin n → Fin n → ℚ) (hN : ∀ r c, (N r c).get = .fin (B r c))
    (hd : ∀ r, B r r ≤ A ∧ binary64 (B r r) = .fin (B r r)) (ho : ∀ r c, r ≠ c → B r c ≤ 0)
    (hs : ∀ r, t + n * A / 2 ^ 50 ≤ ∑ c, B r c) (s : Lu (Fused binary64 fuse)) (htol : s.tol.get = .fin t) :
    ∃ s' : Lu (Fused binary64 fuse), factorise (Fused.arith binary64 fuse) false s (mat N) = .ok (s', true) ∧
      ∀ (b1 b2 b3 x1 x3 : Fin n → ℚ) (k : Fin n → Hist) (X1 X3 : Fin n → Fused binary64 fuse) (z1 z2 z3 : List (Fused binary64 fuse)),
        (∀ r, b1 r ≤ b2 r ∧ b2 r ≤ b3 r) →
        Lu.solve false s' z1 (some (vec fun r => .num (.fin (b1 r)) (k r))) = .ok (vec X1, true, 1) → (∀ r, (X1 r).get = .fin (x1 r)) →
        Lu.solve false s' z3 (some (vec fun r => .num (.fin (b3 r)) (k r))) = .ok (vec X3, true, 1) → (∀ r, (X3 r).get = .fin (x3 r)) →
        ∃ (X2 : Fin n → Fused binary64 fuse) (x2 : Fin n → ℚ),
          Lu.solve false s' z2 (some (vec fun r => .num (.fin (b2 r)) (k r))) = .ok (vec X2, true, 1) ∧ (∀ r, (X2 r).get = .fin (x2 r)) ∧
          ∀ r, x1 r ≤ x2 r ∧ x2 r ≤ x3 r := by
  have ht0 : 0 < t := lt_of_lt_of_le (by positivity) ht
  obtain ⟨K, M, h1, hK, h2, h3⟩ := factorise_dominantF ht hn hA hN hd ho hs s htol
  refine ⟨_, h1, ?_⟩
  intro b1 b2 b3 x1 x3 k X1 X3 z1 z2 z3 hb e1 v1 e3 v3
  have sol := fun (b : Fin n → ℚ) z => solve_any false { s with factorised := true, lu := mat K } K rfl rfl 1 (by simp) (fun _ => rfl)
    (fun r => (.num (.fin (b r)) (k r) : Fused binary64 fuse)) z
  obtain ⟨y1, w1, k1, p1, q1⟩ := sol b1 z1
  obtain ⟨y2, w2, k2, p2, q2⟩ := sol b2 z2
  obtain ⟨y3, w3, k3, p3, q3⟩ := sol b3 z3
  rw [k1] at e1
  rw [k3] at e3
  simp only [Out.ok.injEq, Prod.mk.injEq, and_true] at e1 e3
  obtain rfl := vec_inj.mp e1
  obtain rfl := vec_inj.mp e3
  have key := sweeps_betweenF hK (b1 := fun r => .num (.fin (b1 r)) (k r)) (b2 := fun r => .num (.fin (b2 r)) (k r))
    (b3 := fun r => .num (.fin (b3 r)) (k r)) (fun r => ht0.trans_le (h3 r)) h2
    (fun r => ⟨b1 r, b2 r, b3 r, rfl, rfl, rfl, (hb r).1, (hb r).2, rfl, rfl⟩) p1 p2 p3 q1 q2 q3
    (fun r => ⟨_, v1 r⟩) (fun r => ⟨_, v3 r⟩)
  choose l x2 u a1 a2 a3 a4 a5 a6 using key
  refine ⟨w2, x2, k2, a2, fun r => ?_⟩
  have c1 := (a1 r).symm.trans (v1 r)
  have c3 := (a3 r).symm.trans (v3 r)
  rw [Fl.fin.injEq] at c1 c3
  rw [← c1, ← c3]
  exact ⟨a4 r, a5 r⟩

theorem less_zeroF {n : Nat} {v : Fused binary64 fuse} (hv : v.get = .fin 0) {f g : Fin n → Fused binary64 fuse} {m : Fin n → ℚ}
    (hf : ∀ c, (f c).get = .fin (m c)) {a k : Nat} (hg : ∀ c : Fin n, a ≤ c.1 → c.1 < a + k → (g c).get = .fin 0) :
    (less v (fun c => f c * g c) a k).get = .fin 0 := by
  induction k with
  | zero => exact hv
  | succ k ih =>
    have ih := ih fun c h1 h2 => hg c h1 (by omega)
    unfold less
    split
    · refine sub_get ih (p := 0) ?_ (by rw [sub_zero]; exact binary64_zero)
      rw [operand_get (hf _) (hg _ (by simp) (by simp)), mul_zero]
      split
      · rfl
      · exact binary64_zero
    · exact ih

/-- C231: the solution for a right hand side without negative numbers has no negative numbers, whatever operations are fused. -/
theorem c231_nonneg {n : Nat} {t A : ℚ} (ht : 1 / 2 ^ 100 ≤ t) (hn : n ≤ 2 ^ 50) (hA : A ≤ 2 ^ 900)
    (N : Fin n → Fin n → Fused binary64 fuse) (B : Fin n → Fin n → ℚ) (hN : ∀ r c, (N r c).get = .fin (B r c))
    (hd : ∀ r, B r r ≤ A ∧ binary64 (B r r) = .fin (B r r)) (ho : ∀ r c, r ≠ c → B r c ≤ 0)
    (hs : ∀ r, t + n * A / 2 ^ 50 ≤ ∑ c, B r c) (s s' : Lu (Fused binary64 fuse)) (htol : s.tol.get = .fin t) {ok : Bool}
    (hf : factorise (Fused.arith binary64 fuse) false s (mat N) = .ok (s', ok)) {b x : Fin n → ℚ} (k : Fin n → Hist) (hb : ∀ r, 0 ≤ b r)
    {z : List (Fused binary64 fuse)} {X : Fin n → Fused binary64 fuse}
    (hX : Lu.solve false s' z (some (vec fun r => .num (.fin (b r)) (k r))) = .ok (vec X, true, 1)) (hx : ∀ r, (X r).get = .fin (x r))
    (r : Fin n) : 0 ≤ x r := by
  have ht0 : 0 < t := lt_of_lt_of_le (by positivity) ht
  obtain ⟨K, M, h1, hK, h2, h3⟩ := factorise_dominantF ht hn hA hN hd ho hs s htol
  obtain ⟨s1, g1, g2⟩ := c231_between ht hn hA N B hN hd ho hs s htol
  rw [h1] at g1
  rw [h1] at hf
  simp only [Out.ok.injEq, Prod.mk.injEq, and_true] at g1 hf
  obtain ⟨rfl, -⟩ := hf
  subst g1
  obtain ⟨y, w, k1, p1, q1⟩ := solve_any false { s with factorised := true, lu := mat K } K rfl rfl 1 (by simp) (fun _ => rfl)
    (fun r => (.num (.fin 0) (k r) : Fused binary64 fuse)) z
  have hy : ∀ k, ∀ r : Fin n, r.1 = k → (y r).get = .fin 0 := by
    intro k
    induction k using Nat.strong_induction_on with
    | _ k ih =>
      rintro r rfl
      rw [p1 r]
      exact less_zeroF rfl (hK r) fun c _ hc => ih c.1 (by omega) c rfl
  have hw : ∀ k, ∀ r : Fin n, n - 1 - r.1 = k → (w r).get = .fin 0 := by
    intro k
    induction k using Nat.strong_induction_on with
    | _ k ih =>
      rintro r rfl
      rw [q1 r]
      exact div_get (less_zeroF (hy r.1 r rfl) (hK r) fun c hc hc' => ih (n - 1 - c.1) (by omega) c rfl) (hK r r)
        (ht0.trans_le (h3 r)).ne' (by rw [zero_div]; exact binary64_zero)
  obtain ⟨X2, x2, e1, e2, e3⟩ := g2 (fun _ => 0) b b (fun _ => 0) x k w X z z z (fun r => ⟨hb r, le_rfl⟩) k1 (fun r => hw _ r rfl) hX hx
  exact (e3 r).1.trans (e3 r).2

/-- A matrix, with the default tolerance, that meets the hypotheses, whichever products are fused: the solver gives finite numbers for
a right hand side, and none is negative. -/
example (fuse : Hist → Hist → Hist → Bool) (l : Fin 2 → Fin 2 → Nat) (k : Fin 2 → Hist) :
    ∃ (s' : Lu (Fused binary64 fuse)) (X : Fin 2 → Fused binary64 fuse) (x : Fin 2 → ℚ),
      factorise (Fused.arith binary64 fuse) false ⟨false, (Fused.arith binary64 fuse).tol, [], []⟩
        (mat fun r c => inp (l r c) (if r = c then 3 else -1)) = .ok (s', true) ∧
      Lu.solve false s' [] (some (vec fun r => .num (.fin r.1) (k r))) = .ok (vec X, true, 1) ∧ (∀ r, (X r).get = .fin (x r)) ∧
      ∀ r, 0 ≤ x r := by
  obtain ⟨s', h1, h2⟩ := c223_solved (fuse := fuse) (n := 2) (t := 64 * (1 / 2 ^ 52)) (A := 4) (S := 1) (by norm_num) (by decide +kernel)
    (fun r c => inp (l r c) (if r = c then 3 else -1)) (fun r c => if r = c then 3 else -1) (fun _ _ => rfl) (by decide +kernel)
    (by decide +kernel) (by norm_num) ⟨false, (Fused.arith binary64 fuse).tol, [], []⟩ rfl
  obtain ⟨X, x, h3, h4, -⟩ := h2 (fun r => .num (.fin r.1) (k r)) (fun r => r.1) 1 [] (fun _ => rfl) (by decide +kernel) (by decide +kernel)
  exact ⟨s', X, x, h1, h3, h4, c231_nonneg (t := 64 * (1 / 2 ^ 52)) (A := 3) (by norm_num) (by norm_num) (by decide +kernel) _
    (fun r c => if r = c then 3 else -1) (fun _ _ => rfl) (by decide +kernel) (by decide +kernel) (by decide +kernel) _ s' rfl h1 k
    (by decide +kernel) h3 h4⟩

end Disa.Props
