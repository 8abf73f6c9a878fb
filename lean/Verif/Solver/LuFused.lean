import Verif.Solver.LuFloat
import Verif.Scalar.Fused

/-!
# The direct solver with fused operations
-/

namespace Disa.Lu

open Disa Spec Dense Fused

variable {rnd : ℚ → Fl} {fuse : Hist → Hist → Hist → Bool} {u η : ℚ}

/-- One step `r = s - a b`, for a value `v` that should be `S + s`, with a product `p` that may be exact. -/
theorem chain_near (h : Rounds rnd u η) (h1 : u < 1) {s a b p r v S T H : ℚ} (k : Nat) (hp : |p - a * b| ≤ u * |a * b| + η)
    (hr : rnd (s - p) = .fin r) (he : |v - S - s| ≤ (gain u ^ k - 1) * (T + |s|) + H) (hT : 0 ≤ T) :
    |v - (S + a * b) - r| ≤ (gain u ^ (k + 1) - 1) * (T + |a * b| + |r|) + (H + gain u ^ k * ((1 + gain u) * η)) := by
  obtain ⟨g1, g2, g3⟩ := gain_spec h.u_nonneg h1
  have hη := h.η_nonneg
  have hu := h.u_nonneg
  obtain ⟨e1, e2⟩ := back_error h h1 hr
  have e3 := hp
  have e4 : |v - (S + a * b) - r| ≤ |v - S - s| + |s - p - r| + |p - a * b| := by
    rw [show v - (S + a * b) - r = (v - S - s) + (s - p - r) + (p - a * b) by ring]
    exact (abs_add_le _ _).trans (add_le_add (abs_add_le _ _) le_rfl)
  have e5 : |s| ≤ |s - p| + (|a * b| + |p - a * b|) := by
    have h2 : |s| ≤ |s - p| + |p| := by
      rw [show s = (s - p) + p by ring]
      simpa using abs_add_le (s - p) p
    have h3 : |p| ≤ |a * b| + |p - a * b| := by
      conv_lhs => rw [show p = a * b + (p - a * b) by ring]
      exact abs_add_le _ _
    linarith
  have e6 : |s| ≤ gain u * (|r| + η) + ((1 + u) * |a * b| + η) := by linarith
  have hG : 1 ≤ gain u ^ k := one_le_pow₀ g1
  have e7 : (gain u ^ k - 1) * (T + |s|) ≤ (gain u ^ k - 1) * (T + (gain u * (|r| + η) + ((1 + u) * |a * b| + η))) :=
    mul_le_mul_of_nonneg_left (by linarith) (by linarith)
  have hab := abs_nonneg (a * b)
  have e8 : gain u ^ k * ((1 + u) * |a * b|) ≤ gain u ^ k * (gain u * |a * b|) := by gcongr
  have e9 : gain u ^ k * T ≤ gain u ^ (k + 1) * T := by
    rw [pow_succ]
    have : gain u ^ k * T * 1 ≤ gain u ^ k * T * gain u := by gcongr
    linarith
  have e10 : gain u ^ (k + 1) = gain u ^ k * gain u := pow_succ _ _
  rw [e10] at e9 ⊢
  nlinarith

theorem less_fused (h : Rounds rnd u η) (h1 : u < 1) {n : Nat} (v : Fused rnd fuse) (f g : Fin n → Fused rnd fuse) (a m : Nat) :
    a + m ≤ n → (less v (fun c => f c * g c) a m).IsFin →
    v.IsFin ∧ (∀ c : Fin n, a ≤ c.1 → c.1 < a + m → (f c).IsFin ∧ (g c).IsFin) ∧
    |v.val - psum (fun c => (f c).val * (g c).val) a m - (less v (fun c => f c * g c) a m).val| ≤
      (gain u ^ m - 1) * (psum (fun c => |(f c).val * (g c).val|) a m + |(less v (fun c => f c * g c) a m).val|) +
        small u η m := by
  induction m with
  | zero =>
    intro _ hr
    refine ⟨hr, fun c h1 h2 => by omega, ?_⟩
    simp [psum_zero, less, small]
  | succ m ih =>
    intro hm hr
    have hlt : a + m < n := by omega
    have hd : less v (fun c => f c * g c) a (m + 1) = less v (fun c => f c * g c) a m - f ⟨a + m, hlt⟩ * g ⟨a + m, hlt⟩ := by
      conv_lhs => unfold less
      rw [dif_pos hlt]
    rw [hd] at hr ⊢
    obtain ⟨e1, e2, e3, p, e4, e5⟩ := sub_mul_fin h hr
    obtain ⟨i1, i2, i3⟩ := ih (by omega) e1
    refine ⟨i1, ?_, ?_⟩
    · intro c h2 h3
      by_cases hc : c = ⟨a + m, hlt⟩
      · subst hc
        exact ⟨e2, e3⟩
      · have : c.1 ≠ a + m := fun h => hc (Fin.ext h)
        exact i2 c h2 (by omega)
    · rw [psum_succ _ _ _ hlt, psum_succ _ _ _ hlt]
      refine (chain_near h h1 m e4 e5 i3 (psum_nonneg (fun c => abs_nonneg _) _ _)).trans ?_
      have := small_succ h.u_nonneg h1 h.η_nonneg m
      linarith

/-- All elements are finite. -/
def AllFin {n : Nat} (M : Fin n → Fin n → Fused rnd fuse) : Prop := ∀ r c, (M r c).IsFin

/-- The values of the elements. -/
def fvals {n : Nat} (M : Fin n → Fin n → Fused rnd fuse) (r c : Fin n) : ℚ := (M r c).val

/-- The absolute values of the elements. -/
def fsizes {n : Nat} (M : Fin n → Fin n → Fused rnd fuse) (r c : Fin n) : ℚ := |(M r c).val|

theorem fsizes_nonneg {n : Nat} (M : Fin n → Fin n → Fused rnd fuse) (r c : Fin n) : 0 ≤ fsizes M r c := abs_nonneg _

/-- The factors after `i` steps are near to the matrix with permuted rows, unless there was an overflow. -/
def CloseF (u η : ℚ) {n : Nat} (A : Fin n → Fin n → Fused rnd fuse) (p : Equiv.Perm (Fin n)) (M : Fin n → Fin n → Fused rnd fuse) (i : Nat) :
    Prop :=
  AllFin M → AllFin A ∧ ∀ r c, |(A (p r) c).val - prod (fvals M) i r c| ≤
    (gain u ^ i - 1) * prod (fsizes M) i r c + small u η i * (1 + if c.1 < i then fsizes M c c else 0)

theorem closeF_zero {n : Nat} (A : Fin n → Fin n → Fused rnd fuse) : CloseF u η A 1 A 0 := by
  intro hA
  refine ⟨hA, fun r c => ?_⟩
  have : prod (fvals A) 0 r c = (A r c).val := by
    unfold prod
    simp [lower, upper, fvals]
  simp [this, small]

theorem closeF_swap {n : Nat} {A : Fin n → Fin n → Fused rnd fuse} {p : Equiv.Perm (Fin n)} {M : Fin n → Fin n → Fused rnd fuse} {i m : Fin n}
    (h : CloseF u η A p M i) (hm : i ≤ m) :
    CloseF u η A ((Equiv.swap i m).trans p) (fun r => M (Equiv.swap i m r)) i := by
  intro hf
  have hM : AllFin M := by
    intro r c
    have := hf (Equiv.swap i m r) c
    simpa using this
  obtain ⟨h1, h2⟩ := h hM
  refine ⟨h1, fun r c => ?_⟩
  have e1 : prod (fvals fun r => M (Equiv.swap i m r)) i r c = prod (fvals M) i (Equiv.swap i m r) c := prod_swap (fvals M) hm r c
  have e2 : prod (fsizes fun r => M (Equiv.swap i m r)) i r c = prod (fsizes M) i (Equiv.swap i m r) c := prod_swap (fsizes M) hm r c
  rw [e1, e2, Equiv.trans_apply]
  refine (h2 (Equiv.swap i m r) c).trans (le_of_eq ?_)
  congr 3
  by_cases hc : c.1 < i.1
  · have : Equiv.swap i m c = c := by
      apply Equiv.swap_apply_of_ne_of_ne
      · rintro rfl; omega
      · rintro rfl; have : i.1 ≤ c.1 := hm; omega
    rw [if_pos hc, if_pos hc]
    simp only [fsizes, this]
  · rw [if_neg hc, if_neg hc]

theorem elimF_same {n : Nat} (M : Fin n → Fin n → Fused rnd fuse) {i r c : Fin n} (h : r ≤ i ∨ c < i) : elim M i r c = M r c := by
  unfold elim
  rcases h with h | h
  · rw [if_neg (not_lt.mpr h)]
  · split
    · rw [if_neg (ne_of_lt h), if_neg (not_lt.mpr h.le)]
    · rfl

theorem closeF_elim (h : Rounds rnd u η) (h1 : u < 1) {n : Nat} {A : Fin n → Fin n → Fused rnd fuse} {p : Equiv.Perm (Fin n)}
    {M : Fin n → Fin n → Fused rnd fuse} {i : Fin n} (hc : CloseF u η A p M i)
    (hd : (M i i).IsFin → (M i i).val ≠ 0) : CloseF u η A p (elim M i) (i.1 + 1) := by
  intro hf
  have hu := h.u_nonneg
  have hη := h.η_nonneg
  obtain ⟨g1, -, -⟩ := gain_spec hu h1
  have hdf : (M i i).IsFin := by
    have := hf i i
    rwa [elimF_same M (.inl le_rfl)] at this
  have hd0 := hd hdf
  -- the steps for the multipliers and the other elements
  have hquot : ∀ r, i < r → (M r i).IsFin ∧ rnd ((M r i).val / (M i i).val) = .fin (elim M i r i).val := by
    intro r hr
    have e : elim M i r i = M r i / M i i := by simp [elim, hr]
    have := hf r i
    rw [e] at this ⊢
    exact div_isFin hdf hd0 this
  have hchain : ∀ r c, i < r → i < c → (M r c).IsFin ∧
      ∃ q, |q - (elim M i r i).val * (M i c).val| ≤ u * |(elim M i r i).val * (M i c).val| + η ∧
        rnd ((M r c).val - q) = .fin (elim M i r c).val := by
    intro r c hr hic
    have e : elim M i r c = M r c - elim M i r i * M i c := by
      have : c ≠ i := ne_of_gt hic
      simp [elim, hr, this, hic]
    have := hf r c
    rw [e] at this
    obtain ⟨e1, -, -, q, e2, e3⟩ := sub_mul_fin h this
    exact ⟨e1, q, e2, by rw [e]; exact e3⟩
  have hM : AllFin M := by
    intro r c
    by_cases hs : r ≤ i ∨ c < i
    · have := hf r c
      rwa [elimF_same M hs] at this
    · push Not at hs
      rcases hs.2.lt_or_eq with hlt | heq
      · exact (hchain r c hs.1 hlt).1
      · subst heq
        exact (hquot r hs.1).1
  obtain ⟨hA, hb⟩ := hc hM
  refine ⟨hA, fun r c => ?_⟩
  have hsame : ∀ r c : Fin n, (r ≤ i ∨ c < i) → fvals (elim M i) r c = fvals M r c := fun r c hs => by
    unfold fvals; rw [elimF_same M hs]
  have hsame' : ∀ r c : Fin n, (r ≤ i ∨ c < i) → fsizes (elim M i) r c = fsizes M r c := fun r c hs => by
    unfold fsizes; rw [elimF_same M hs]
  have p1 := prod_elim hsame r c
  have p2 := prod_elim hsame' r c
  have hbr := hb r c
  have hsm := small_succ hu h1 hη i.1
  have hs0 := small_nonneg hu h1 hη (i.1 + 1)
  have hz : 0 ≤ η * gain u ^ i.1 := by positivity
  by_cases hrc : i < r ∧ i ≤ c
  · rw [if_pos hrc] at p1 p2
    have hci : ¬ c.1 < i.1 := Nat.not_lt.mpr hrc.2
    rw [if_neg hci, add_zero, mul_one] at hbr
    have hT : 0 ≤ prod (fsizes M) i r c - fsizes M r c := sub_nonneg.mpr (le_prod (fsizes_nonneg M) hrc.2)
    have he : |(A (p r) c).val - (prod (fvals M) i r c - (M r c).val) - (M r c).val| ≤
        (gain u ^ i.1 - 1) * (prod (fsizes M) i r c - fsizes M r c + |(M r c).val|) + small u η i.1 := by
      have e1 : (A (p r) c).val - (prod (fvals M) i r c - (M r c).val) - (M r c).val =
          (A (p r) c).val - prod (fvals M) i r c := by ring
      have e2 : prod (fsizes M) i r c - fsizes M r c + |(M r c).val| = prod (fsizes M) i r c := by
        unfold fsizes; ring
      rw [e1, e2]
      exact hbr
    rcases hrc.2.lt_or_eq with hlt | heq
    · obtain ⟨-, q, e1, e2⟩ := hchain r c hrc.1 hlt
      have hlt' : ¬ c.1 < i.1 + 1 := by have : i.1 < c.1 := hlt; omega
      have := chain_near h h1 i.1 e1 e2 he hT
      rw [p1, p2, if_pos hlt, if_pos hlt, if_neg hlt', add_zero, mul_one]
      have e3 : (A (p r) c).val - (prod (fvals M) i r c + (fvals (elim M i) r i * fvals M i c + fvals (elim M i) r c - fvals M r c))
          = (A (p r) c).val - (prod (fvals M) i r c - (M r c).val + (elim M i r i).val * (M i c).val) -
            (elim M i r c).val := by unfold fvals; ring
      have e4 : prod (fsizes M) i r c + (fsizes (elim M i) r i * fsizes M i c + fsizes (elim M i) r c - fsizes M r c) =
          prod (fsizes M) i r c - fsizes M r c + |(elim M i r i).val * (M i c).val| + |(elim M i r c).val| := by
        rw [abs_mul]; unfold fsizes; ring
      rw [e3, e4]
      linarith
    · subst heq
      obtain ⟨-, e1⟩ := hquot r hrc.1
      have := quot_error h h1 i.1 hd0 e1 he hT
      have hdd : fsizes (elim M i) i i = fsizes M i i := hsame' i i (.inl le_rfl)
      rw [p1, p2, if_neg (lt_irrefl i), if_neg (lt_irrefl i), if_pos (Nat.lt_succ_self i.1), hdd]
      have e3 : (A (p r) i).val - (prod (fvals M) i r i + (fvals (elim M i) r i * fvals M i i + 0 - fvals M r i))
          = (A (p r) i).val - (prod (fvals M) i r i - (M r i).val + (elim M i r i).val * (M i i).val) := by
        unfold fvals; ring
      have e4 : prod (fsizes M) i r i + (fsizes (elim M i) r i * fsizes M i i + 0 - fsizes M r i) =
          prod (fsizes M) i r i - fsizes M r i + |(elim M i r i).val * (M i i).val| := by
        rw [abs_mul]; unfold fsizes; ring
      rw [e3, e4]
      have hp := fsizes_nonneg M i i
      have e5 : small u η i.1 ≤ small u η (i.1 + 1) := small_mono hu h1 hη (Nat.le_succ _)
      have e6 : gain u ^ (i.1 + 1) * (η * |(M i i).val|) ≤ small u η (i.1 + 1) * fsizes M i i := by
        have : gain u ^ (i.1 + 1) * η ≤ small u η (i.1 + 1) := by
          unfold small
          push_cast
          have h3 : 0 ≤ gain u ^ (i.1 + 1) * η := by positivity
          have h4 : (1 : ℚ) ≤ (i.1 + 1) * (1 + gain u) := by
            have : (0 : ℚ) ≤ i.1 := by positivity
            nlinarith
          nlinarith
        have := mul_le_mul_of_nonneg_right this hp
        unfold fsizes at this ⊢
        linarith
      linarith
  · rw [if_neg hrc, add_zero] at p1 p2
    rw [p1, p2]
    refine hbr.trans (add_le_add ?_ ?_)
    · refine mul_le_mul_of_nonneg_right ?_ (prod_nonneg (fsizes_nonneg M) _ _ _)
      have : gain u ^ i.1 ≤ gain u ^ (i.1 + 1) := pow_le_pow_right₀ g1 (Nat.le_succ _)
      linarith
    · refine mul_le_mul (small_mono hu h1 hη (Nat.le_succ _)) ?_ ?_ hs0
      · by_cases hc1 : c.1 < i.1
        · rw [if_pos hc1, if_pos (by omega), hsame' c c (.inr hc1)]
        · rw [if_neg hc1]
          split
          · have := fsizes_nonneg (elim M i) c c
            linarith
          · exact le_rfl
      · split
        · have := fsizes_nonneg M c c
          linarith
        · norm_num

theorem nearlyGreater_fused (a b : Fused rnd fuse) :
    ∃ g, (Fused.arith rnd fuse).nearlyGreater a b (Fused.arith rnd fuse).rel (Fused.arith rnd fuse).tol = .ok g := by
  have h1 : (Fused.arith rnd fuse).le (Fused.arith rnd fuse).eps (Fused.arith rnd fuse).rel = true := by
    show Fl.le (.fin (1 / 2 ^ 52)) (.fin (65536 * (1 / 2 ^ 52))) = true
    decide +kernel
  have h2 : (Fused.arith rnd fuse).le (Fused.arith rnd fuse).rel (Fused.arith rnd fuse).one = true := by
    show Fl.le (.fin (65536 * (1 / 2 ^ 52))) (.fin 1) = true
    decide +kernel
  unfold Arith.nearlyGreater Arith.nearlyLessEqual
  rw [Props.nearlyEqual_ok _ h1 h2]
  split <;> exact ⟨_, rfl⟩

/-- State of the factorisation before step `i`. -/
structure RoundedF (u η : ℚ) {n : Nat} (pivot : Bool) (tol : Fused rnd fuse) (A : Fin n → Fin n → Fused rnd fuse) (piv : List Nat)
    (p : Equiv.Perm (Fin n)) (M : Fin n → Fin n → Fused rnd fuse) (i : Nat) (st : List Nat) : Prop where
  close : CloseF u η A p M i
  diag : ∀ k : Fin n, k.1 < i → (Fused.arith rnd fuse).lt ((Fused.arith rnd fuse).abs (M k k)) tol = false
  pivots : pivot = true → st = vec fun r => (p r).1
  none : pivot = false → st = piv ∧ p = 1

theorem ne_zero_of_acceptedF {a tol : Fused rnd fuse} {t : ℚ} (ht : 0 < t) (htol : tol.get = .fin t)
    (h : (Fused.arith rnd fuse).lt ((Fused.arith rnd fuse).abs a) tol = false) : a.IsFin → a.val ≠ 0 := by
  intro ha h0
  have h' : Fl.lt (Fl.abs a.get) tol.get = false := h
  rw [ha, h0, htol] at h'
  simp [Fl.lt, Fl.abs, ht] at h'

theorem factorise_fused (h : Rounds rnd u η) (h1 : u < 1) (pivot : Bool) (s : Lu (Fused rnd fuse)) {t : ℚ} (ht : 0 < t)
    (hs : s.tol.get = .fin t) {n : Nat} (A : Fin n → Fin n → Fused rnd fuse) :
    ∃ (p : Equiv.Perm (Fin n)) (M : Fin n → Fin n → Fused rnd fuse) (st : List Nat) (ok : Bool),
      factorise (Fused.arith rnd fuse) pivot s (mat A) = .ok ({ s with factorised := ok, lu := mat M, piv := st }, ok) ∧
      (ok = true → RoundedF u η pivot s.tol A s.piv p M n st) := by
  obtain ⟨_, h2, p, M, st, ok, rfl, h3⟩ := loop_inv (n := n) (body := factoriseBody (Fused.arith rnd fuse) pivot s.tol)
    (s := (mat A, (if pivot then List.range (sizeColumn (mat A)) else s.piv), true))
    (fun i t => ∃ (p : Equiv.Perm (Fin n)) (M : Fin n → Fin n → Fused rnd fuse) (st : List Nat) (ok : Bool), t = (mat M, st, ok) ∧
      (ok = true → RoundedF u η pivot s.tol A s.piv p M i st))
    ⟨1, A, _, true, rfl, fun _ => ⟨closeF_zero A, fun k hk => absurd hk (Nat.not_lt_zero _), fun hp => by
      rw [if_pos hp, sizeColumn_mat (by omega), vec_range]; rfl, fun hp => by rw [if_neg (by simp [hp])]; exact ⟨rfl, rfl⟩⟩⟩ (by
      rintro i t' hi ⟨p, M, st, ok, rfl, h3⟩
      cases ok with
      | false => exact ⟨_, rfl, p, M, st, false, rfl, by simp⟩
      | true =>
        have h4 := h3 rfl
        obtain ⟨p1, M1, st1, e1, h5⟩ : ∃ (p1 : Equiv.Perm (Fin n)) (M1 : Fin n → Fin n → Fused rnd fuse) (st1 : List Nat),
            (if pivot then pivotStep (Fused.arith rnd fuse) i (mat M, st) else pure (mat M, st)) = .ok (mat M1, st1) ∧
            RoundedF u η pivot s.tol A s.piv p1 M1 i st1 := by
          cases pivot with
          | false => exact ⟨p, M, st, rfl, h4⟩
          | true =>
            obtain ⟨m, hm, hsw⟩ := pivotStep_any (F := Fused.arith rnd fuse) nearlyGreater_fused M (fun r => (p r).1) ⟨i, hi⟩
            rw [h4.pivots rfl]
            refine ⟨_, _, _, hsw, ⟨closeF_swap h4.close hm, ?_, fun _ => rfl, by simp⟩⟩
            intro k hk
            have : Equiv.swap ⟨i, hi⟩ m k = k := by
              apply Equiv.swap_apply_of_ne_of_ne
              · rintro rfl; exact absurd hk (by simp)
              · rintro rfl
                have : i ≤ k.1 := hm
                omega
            simp only [this]
            exact h4.diag k hk
        cases hsmall : (Fused.arith rnd fuse).lt ((Fused.arith rnd fuse).abs (M1 ⟨i, hi⟩ ⟨i, hi⟩)) s.tol with
        | true =>
          refine ⟨(mat M1, st1, false), ?_, p1, M1, st1, false, rfl, by simp⟩
          unfold factoriseBody
          simp only [if_true, e1, Out.ok_bind, rd2_mat M1 hi hi, hsmall]
          rfl
        | false =>
          refine ⟨(mat (elim M1 ⟨i, hi⟩), st1, true), ?_, p1, _, st1, true, rfl, fun _ => ⟨?_, ?_, h5.pivots, h5.none⟩⟩
          · unfold factoriseBody
            simp only [if_true, e1, Out.ok_bind, rd2_mat M1 hi hi, hsmall, Bool.false_eq_true, if_false, mat_length]
            have := eliminate_ok M1 ⟨i, hi⟩
            simp only at this
            rw [this]
            rfl
          · refine closeF_elim h h1 (i := ⟨i, hi⟩) h5.close ?_
            exact ne_zero_of_acceptedF ht hs hsmall
          · intro k hk
            rw [elimF_same M1 (.inl (show k.1 ≤ i by omega))]
            by_cases hki : k.1 < i
            · exact h5.diag k hki
            · obtain rfl : k = ⟨i, hi⟩ := Fin.ext (by show k.1 = i; omega)
              exact hsmall)
  refine ⟨p, M, st, ok, ?_, h3⟩
  unfold factorise
  rw [mat_length, h2]
  rfl

end Disa.Lu
