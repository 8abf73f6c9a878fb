import Verif.Props.LuPivot
import Verif.Props.LuParts
import Verif.Props.DegreeBand

/-!
# Property C212: growth and errors of the direct solver with pivoting on banded matrices
-/

namespace Disa.Props

open Disa Spec Dense Num Lu

/-- How often an element of row `r` and column `c` can have been updated before step `i`. -/
def updates (β i r c : Nat) : Nat := min (min i r) (min i r + 2 * β - c)

section

variable {n β : Nat} {B N : Fin n → Fin n → ℚ} {a : ℚ} {p : Fin n → Nat}

/-- The state before step `i`: rows from `i + j` on have not been touched, and those before reach at most `2 β` further than the
step.  Between the search for the pivot and the elimination `j` is `β + 1`, and otherwise `β`. -/
structure BandState (B : Fin n → Fin n → ℚ) (β : Nat) (a : ℚ) (i j k : Nat) (N : Fin n → Fin n → ℚ) (p : Fin n → Nat) : Prop where
  double : ∀ r c, binary64 (N r c) = .fin (N r c)
  mult : ∀ r c : Fin n, c.1 < i → c < r → |N r c| ≤ 5 / 2
  bound : ∀ r c : Fin n, ¬ (c.1 < i ∧ c < r) → |N r c| ≤ 4 ^ updates β i r c * a
  fresh : ∀ r c : Fin n, i + j ≤ r.1 → N r c = B r c
  zero : ∀ r c : Fin n, r.1 < i + j → min k (r.1 + 1) + 2 * β ≤ c.1 → N r c = 0
  few : ∀ c : Fin n, c.1 < i → (Finset.univ.filter fun r => c < r ∧ N r c ≠ 0).card ≤ β
  pfresh : ∀ r : Fin n, i + j ≤ r.1 → p r = r.1
  pnear : ∀ r : Fin n, r.1 < i + j → p r < min k (r.1 + 1) + β

theorem swap_ge {i m r : Fin n} (hm : i ≤ m) : i ≤ Equiv.swap i m r ↔ i ≤ r := by
  by_cases h : r = i
  · subst h; simp [hm]
  · by_cases h' : r = m
    · subst h'; simp [hm]
    · rw [Equiv.swap_apply_of_ne_of_ne h h']

theorem swap_low {i m r : Fin n} (hm : i ≤ m) (hr : r < i) : Equiv.swap i m r = r :=
  Equiv.swap_apply_of_ne_of_ne hr.ne (lt_of_lt_of_le hr hm).ne

/-- Exchange of the rows `i` and `m`. -/
theorem band_swap {i m : Fin n} (hB : Band β B) (h : BandState B β a i.1 β i.1 N p) (hm : i ≤ m) (hm' : m.1 ≤ i.1 + β) :
    BandState B β a i.1 (β + 1) (i.1 + 1) (fun r => N (Equiv.swap i m r)) (fun r => p (Equiv.swap i m r)) := by
  have him : i.1 ≤ m.1 := hm
  have hlow : ∀ {r : Fin n}, r < i → Equiv.swap i m r = r := fun hr => swap_low hm hr
  have hge : ∀ {r : Fin n}, i.1 ≤ r.1 → i.1 ≤ (Equiv.swap i m r).1 := fun hr => (swap_ge (r := _) hm).mpr hr
  have hhigh : ∀ {r : Fin n}, i.1 + (β + 1) ≤ r.1 → Equiv.swap i m r = r := fun {r} hr =>
    Equiv.swap_apply_of_ne_of_ne (fun e => by rw [e] at hr; omega) (fun e => by rw [e] at hr; omega)
  have hle : ∀ {r : Fin n}, r.1 < i.1 + (β + 1) → (Equiv.swap i m r).1 ≤ i.1 + β := by
    intro r hr
    by_contra hc
    have : Equiv.swap i m (Equiv.swap i m r) = Equiv.swap i m r := hhigh (by omega)
    rw [Equiv.swap_apply_self] at this
    rw [← this] at hc
    omega
  refine ⟨fun r c => h.double _ _, ?_, ?_, ?_, ?_, ?_, ?_, ?_⟩
  · intro r c hc hcr
    refine h.mult _ _ hc ?_
    by_cases hr : r < i
    · rw [hlow hr]; exact hcr
    · have := hge (r := r) (not_lt.mp hr)
      show c.1 < _
      omega
  · intro r c hc
    by_cases hr : r < i
    · simp only [hlow hr]; exact h.bound r c hc
    · have h1 : i.1 ≤ r.1 := not_lt.mp hr
      have h2 := hge h1
      have h3 : ¬ (c.1 < i.1 ∧ c < Equiv.swap i m r) := by
        rintro ⟨h4, -⟩
        exact hc ⟨h4, show c.1 < r.1 by omega⟩
      have h4 := h.bound _ _ h3
      unfold updates at h4 ⊢
      rw [min_eq_left h2] at h4
      rwa [min_eq_left h1]
  · intro r c hr
    simp only [hhigh hr]
    exact h.fresh r c (by omega)
  · intro r c hr hc
    by_cases hri : r < i
    · have : r.1 < i.1 := hri
      simp only [hlow hri]
      exact h.zero r c (by omega) (by omega)
    · have h1 : i.1 ≤ r.1 := not_lt.mp hri
      have h2 := hge h1
      have h3 := hle hr
      have h4 : (Equiv.swap i m r).1 < i.1 + β ∨ (Equiv.swap i m r).1 = i.1 + β := by omega
      rcases h4 with h4 | h4
      · exact h.zero _ c h4 (by omega)
      · show N _ c = 0
        rw [h.fresh _ c (by omega)]
        exact hB _ _ (.inr (by omega))
  · intro c hc
    refine le_trans (le_of_eq ?_) (h.few c hc)
    refine Finset.card_bij (fun r _ => Equiv.swap i m r) ?_ (fun _ _ _ _ e => (Equiv.swap i m).injective e) ?_
    · intro r hr
      simp only [Finset.mem_filter, Finset.mem_univ, true_and] at hr ⊢
      refine ⟨?_, hr.2⟩
      by_cases hri : r < i
      · rw [hlow hri]; exact hr.1
      · have := hge (r := r) (not_lt.mp hri)
        show c.1 < _
        omega
    · intro r hr
      simp only [Finset.mem_filter, Finset.mem_univ, true_and] at hr ⊢
      refine ⟨Equiv.swap i m r, ⟨?_, by rw [Equiv.swap_apply_self]; exact hr.2⟩, Equiv.swap_apply_self _ _ _⟩
      by_cases hri : r < i
      · rw [hlow hri]; exact hr.1
      · have := hge (r := r) (not_lt.mp hri)
        show c.1 < _
        omega
  · intro r hr
    simp only [hhigh hr]
    exact h.pfresh r (by omega)
  · intro r hr
    by_cases hri : r < i
    · have : r.1 < i.1 := hri
      simp only [hlow hri]
      have := h.pnear r (by omega)
      omega
    · have h1 : i.1 ≤ r.1 := not_lt.mp hri
      have h2 := hge h1
      have h3 := hle hr
      have h4 : (Equiv.swap i m r).1 < i.1 + β ∨ (Equiv.swap i m r).1 = i.1 + β := by omega
      rcases h4 with h4 | h4
      · have := h.pnear _ h4
        omega
      · have := h.pfresh (Equiv.swap i m r) (by omega)
        omega

/-- One update enlarges by a factor of at most 4. -/
theorem update_bound {b q w l : ℚ} (hb : 1 / 2 ^ 46 ≤ b) (hR : 4 * b + 3 ≤ 2 ^ 1023) (hq : |q| ≤ b) (hw : |w| ≤ b)
    (hl : |l| ≤ 5 / 2) : ∃ x, (fin q : Num binary64) - fin l * fin w = fin x ∧ |x| ≤ 4 * b := by
  obtain ⟨hr, hus, hηs, hrange⟩ := fine_binary64
  generalize (2 : ℚ) ^ 1023 = R at *
  generalize (1 / 2 ^ 1075 : ℚ) = η at *
  generalize (1 / 2 ^ 53 : ℚ) = u at *
  have hu := hr.u_nonneg
  have hη := hr.η_nonneg
  replace hus : u ≤ 1 / 1000 := hus.trans (by norm_num)
  have hτ : (1 / 2 ^ 60 : ℚ) = 1 / 2 ^ 46 * (1 / 2 ^ 14) := by norm_num
  rw [hτ] at hηs
  have hτ1 : (1 / 2 ^ 46 : ℚ) ≤ 1 := by norm_num
  have hτ0 : (0 : ℚ) < 1 / 2 ^ 46 := by norm_num
  have hlw : |l * w| ≤ 5 / 2 * b := by
    rw [abs_mul]
    exact mul_le_mul hl hw (abs_nonneg _) (by norm_num)
  obtain ⟨v, hv⟩ := hrange (l * w) (by linarith)
  have e1 := hr.error _ _ hv
  have g1 := abs_sub_abs_le_abs_sub v (l * w)
  have g2 : u * |l * w| ≤ 1 / 1000 * (5 / 2 * b) := mul_le_mul hus hlw (abs_nonneg _) (by norm_num)
  have g3 : |q - v| ≤ |q| + |v| := abs_sub q v
  obtain ⟨x, hx⟩ := hrange (q - v) (by linarith)
  have e2 := hr.error _ _ hx
  have g4 := abs_sub_abs_le_abs_sub x (q - v)
  have g5 : u * |q - v| ≤ 1 / 1000 * |q - v| := mul_le_mul_of_nonneg_right hus (abs_nonneg _)
  refine ⟨x, ?_, by linarith⟩
  rw [show (fin l : Num binary64) * fin w = fin v from hv]
  exact (Num.sub_eq (rnd := binary64)).trans hx

theorem quot_bound {q d : ℚ} (hd : d ≠ 0) (hq : |q| ≤ 9 / 4 * |d|) :
    ∃ l, (fin q : Num binary64) / fin d = fin l ∧ |l| ≤ 5 / 2 := by
  obtain ⟨hr, hus, hηs, hrange⟩ := fine_binary64
  have hR : (9 / 4 : ℚ) ≤ 2 ^ 1023 := le_trans (by norm_num) (pow_le_pow_right₀ (by norm_num) (show 2 ≤ 1023 by norm_num))
  generalize (2 : ℚ) ^ 1023 = R at *
  generalize (1 / 2 ^ 1075 : ℚ) = η at *
  generalize (1 / 2 ^ 53 : ℚ) = u at *
  replace hus : u ≤ 1 / 1000 := hus.trans (by norm_num)
  have hτ : (1 / 2 ^ 60 : ℚ) ≤ 1 / 1000 := by norm_num
  have hqd : |q / d| ≤ 9 / 4 := by
    rw [abs_div, div_le_iff₀ (abs_pos.mpr hd)]
    exact hq
  obtain ⟨l, hl⟩ := hrange (q / d) (by linarith)
  refine ⟨l, ?_, ?_⟩
  · show Fl.div binary64 (.fin q) (.fin d) = .fin l
    rw [Fl.div, if_neg hd, hl]
  · have e := hr.error _ _ hl
    have := abs_sub_abs_le_abs_sub l (q / d)
    have : u * |q / d| ≤ 1 / 1000 * (9 / 4) := mul_le_mul hus hqd (abs_nonneg _) (by norm_num)
    linarith

theorem updates_le {β i r c : Nat} (h : min i r ≤ c) : updates β i r c ≤ 2 * β := by unfold updates; omega

theorem updates_mono {β i r c : Nat} : updates β i r c ≤ updates β (i + 1) r c := by unfold updates; omega

/-- Elimination in column `i`. -/
theorem band_elim {i : Fin n} (hB : Band β B) (ha : 1 / 2 ^ 46 ≤ a) (hR : 4 ^ (2 * β + 1) * a + 3 ≤ 2 ^ 1023)
    (h : BandState B β a i.1 (β + 1) (i.1 + 1) N p) (hd : N i i ≠ 0) (hp : ∀ r, i < r → |N r i| ≤ 9 / 4 * |N i i|) :
    ∃ N', elim (fun r c => (fin (N r c) : Num binary64)) i = (fun r c => fin (N' r c)) ∧
      (∀ k, k ≤ i → N' k k = N k k) ∧ BandState B β a (i.1 + 1) β (i.1 + 1) N' p := by
  have ha0 : 0 ≤ a := le_trans (by norm_num) ha
  have hpow : ∀ {e e' : Nat}, e ≤ e' → (4 : ℚ) ^ e * a ≤ 4 ^ e' * a := fun he =>
    mul_le_mul_of_nonneg_right (pow_le_pow_right₀ (by norm_num) he) ha0
  have key : ∀ r c, ∃ q, elim (fun r c => (fin (N r c) : Num binary64)) i r c = fin q ∧ binary64 q = .fin q ∧
      (c.1 < i.1 + 1 → c < r → |q| ≤ 5 / 2) ∧ (¬ (c.1 < i.1 + 1 ∧ c < r) → |q| ≤ 4 ^ updates β (i.1 + 1) r c * a) ∧
      (i.1 + 1 + β ≤ r.1 → q = B r c) ∧ (r.1 < i.1 + 1 + β → min (i.1 + 1) (r.1 + 1) + 2 * β ≤ c.1 → q = 0) ∧
      ((r ≤ i ∨ c < i) → q = N r c) := by
    intro r c
    by_cases hr : i < r
    · have hr' : i.1 < r.1 := hr
      obtain ⟨l, hl1, hl2⟩ := quot_bound hd (hp r hr)
      have hld : binary64 l = .fin l := by
        have : Fl.div binary64 (.fin (N r i)) (.fin (N i i)) = .fin l := hl1
        rw [Fl.div, if_neg hd] at this
        exact binary64_idem this
      by_cases hfar : i.1 + 1 + β ≤ r.1
      · -- an untouched row
        have hz : N r i = 0 := by rw [h.fresh r i (by omega)]; exact hB r i (.inl (by omega))
        have hl0 : l = 0 := by
          rw [hz, zero_div64 hd] at hl1
          exact (fin_inj.mp hl1).symm
        refine ⟨N r c, ?_, h.double r c, ?_, ?_, fun _ => h.fresh r c (by omega), fun h1 => by omega, fun _ => rfl⟩
        · unfold elim
          rw [if_pos hr]
          by_cases hc : c = i
          · subst hc
            rw [if_pos rfl, hl1, hl0, hz]
          · rw [if_neg hc]
            by_cases hic : i < c
            · rw [if_pos hic, hl1, hl0, fin_zero_times ⟨_, rfl⟩]
              exact IsDouble.less_zero ⟨_, rfl, h.double r c⟩
            · rw [if_neg hic]
        · intro hc hcr
          by_cases hc' : c.1 < i.1
          · exact h.mult r c hc' hcr
          · obtain rfl : c = i := Fin.ext (by omega)
            rw [hz, abs_zero]
            norm_num
        · intro hc
          exact (h.bound r c fun h1 => hc ⟨by omega, h1.2⟩).trans (hpow updates_mono)
      · by_cases hc : c = i
        · subst hc
          refine ⟨l, ?_, hld, fun _ _ => hl2, fun h1 => absurd ⟨by omega, hr⟩ h1, fun h1 => absurd h1 hfar, fun _ h1 => by omega, ?_⟩
          · rw [elim_at _ _ hr]
            exact hl1
          · rintro (h1 | h1)
            · exact absurd hr (not_lt.mpr h1)
            · exact absurd h1 (lt_irrefl _)
        · have hc' : c.1 ≠ i.1 := fun e => hc (Fin.ext e)
          by_cases hic : i < c
          · have hic' : i.1 < c.1 := hic
            have hel : elim (fun r c => (fin (N r c) : Num binary64)) i r c = fin (N r c) - fin l * fin (N i c) := by
              unfold elim
              rw [if_pos hr, if_neg hc, if_pos hic, hl1]
            have hnot : (r ≤ i ∨ c < i) → False := by
              rintro (h1 | h1)
              · exact absurd hr (not_lt.mpr h1)
              · exact absurd hic (not_lt.mpr h1.le)
            by_cases hout : i.1 + 1 + 2 * β ≤ c.1
            · have z1 := h.zero r c (by omega) (by omega)
              have z2 := h.zero i c (by omega) (by omega)
              refine ⟨0, ?_, binary64_zero, fun h1 => by omega, fun _ => ?_, fun h1 => absurd h1 hfar, fun _ _ => rfl,
                fun h1 => (hnot h1).elim⟩
              · rw [hel, z1, z2, times_fin_zero ⟨_, rfl⟩]
                exact IsDouble.less_zero double_zero
              · rw [abs_zero]
                positivity
            · have b1 := h.bound r c (by omega)
              have b2 := h.bound i c (by omega)
              have u1 : updates β i.1 r.1 c.1 = updates β i.1 i.1 c.1 := by unfold updates; omega
              have u2 : updates β (i.1 + 1) r.1 c.1 = updates β i.1 i.1 c.1 + 1 := by unfold updates; omega
              have u3 : updates β i.1 i.1 c.1 ≤ 2 * β := updates_le (by omega)
              rw [u1] at b1
              obtain ⟨x, hx1, hx2⟩ := update_bound (b := 4 ^ updates β i.1 i.1 c.1 * a) (by
                  have := hpow (Nat.zero_le (updates β i.1 i.1 c.1))
                  rw [pow_zero, one_mul] at this
                  exact ha.trans this) (by
                  have := hpow (Nat.add_le_add_right u3 1)
                  rw [pow_succ] at this
                  refine le_trans ?_ hR
                  linarith) b1 b2 hl2
              refine ⟨x, hel.trans hx1, ?_, fun h1 => by omega, fun _ => ?_, fun h1 => absurd h1 hfar, fun _ h1 => by omega,
                fun h1 => (hnot h1).elim⟩
              · obtain ⟨_, _, -, -, h3⟩ := sub_fin hx1
                exact binary64_idem h3
              · rw [u2, pow_succ]
                linarith
          · have hic' : ¬ i.1 < c.1 := hic
            have hcr : c < r := show c.1 < r.1 by omega
            refine ⟨N r c, ?_, h.double r c, fun _ _ => h.mult r c (by omega) hcr, fun h1 => absurd ⟨by omega, hcr⟩ h1,
              fun h1 => absurd h1 hfar, fun _ h1 => by omega, fun _ => rfl⟩
            unfold elim
            rw [if_pos hr, if_neg hc, if_neg hic]
    · have hr' : ¬ i.1 < r.1 := hr
      refine ⟨N r c, ?_, h.double r c, ?_, ?_, fun h1 => by omega, fun _ h1 => h.zero r c (by omega) h1, fun _ => rfl⟩
      · unfold elim
        rw [if_neg hr]
      · intro _ hcr
        have : c.1 < r.1 := hcr
        exact h.mult r c (by omega) hcr
      · intro hc
        have := h.bound r c fun h1 => hc ⟨by omega, h1.2⟩
        rwa [show updates β (i.1 + 1) r.1 c.1 = updates β i.1 r.1 c.1 by unfold updates; omega]
  choose N' k1 k2 k3 k4 k5 k6 k7 using key
  refine ⟨N', funext fun r => funext fun c => k1 r c, fun k hk => k7 k k (.inl hk), k2, k3, k4, k5, k6, ?_, ?_, ?_⟩
  · intro c hc
    by_cases hc' : c.1 < i.1
    · refine le_trans (le_of_eq ?_) (h.few c hc')
      exact congrArg Finset.card (Finset.filter_congr fun r _ => by rw [k7 r c (.inr hc')])
    · obtain rfl : c = i := Fin.ext (by omega)
      have h1 : (Finset.univ.filter fun r => c < r ∧ N' r c ≠ 0).card ≤ (Finset.Ioc c.1 (c.1 + β)).card := by
        refine Finset.card_le_card_of_injOn Fin.val ?_ (fun _ _ _ _ e => Fin.ext e)
        intro r hr
        simp only [Finset.coe_filter, Finset.mem_univ, true_and, Set.mem_ofPred_eq] at hr
        simp only [Finset.coe_Ioc, Set.mem_Ioc]
        refine ⟨hr.1, ?_⟩
        by_contra hfar
        refine hr.2 ?_
        rw [k5 r c (by omega)]
        exact hB r c (.inl (by omega))
      rwa [Nat.card_Ioc, Nat.add_sub_cancel_left] at h1
  · intro r hr
    exact h.pfresh r (by omega)
  · intro r hr
    exact h.pnear r (by omega)

/-- C212: with pivoting and a tolerance of at least `default_absolute` the factors of a banded matrix of doubles are finite, and their
size depends on the band, but not on the size of the matrix.  The upper factor has at most `2 β` further elements next to each
pivot, the lower one at most `β` in each column, and no row is moved up by more than `β`. -/
theorem c212_factors (s s' : Lu (Num binary64)) {t : ℚ} (ht : 64 * (1 / 2 ^ 52) ≤ t) (hs : s.tol = fin t)
    (hB : Band β B) (hdouble : ∀ r c, binary64 (B r c) = .fin (B r c)) (ha : ∀ r c, |B r c| ≤ a)
    (hR : 4 ^ (2 * β + 1) * a + 3 ≤ 2 ^ 1023)
    (hf : factorise (Num.arith binary64) true s (mat fun r c => (fin (B r c) : Num binary64)) = .ok (s', true)) :
    ∃ (M : Fin n → Fin n → ℚ) (p : Fin n → Nat), s'.lu = mat (fun r c => (fin (M r c) : Num binary64)) ∧ s'.piv = vec p ∧
      (∀ r c, c < r → |M r c| ≤ 5 / 2) ∧ (∀ r c, r ≤ c → |M r c| ≤ 4 ^ (2 * β) * a) ∧
      (∀ r c : Fin n, r.1 + 2 * β < c.1 → M r c = 0) ∧
      (∀ c, (Finset.univ.filter fun r => c < r ∧ M r c ≠ 0).card ≤ β) ∧ (∀ r, p r ≤ r.1 + β) ∧ ∀ k, t ≤ |M k k| := by
  have e0 : (64 * (1 / 2 ^ 52) : ℚ) = 1 / 2 ^ 46 := by norm_num
  rw [e0] at ht
  obtain ⟨_, h2, M, p, ok, rfl, h3⟩ := loop_inv (n := n) (body := factoriseBody (Num.arith binary64) true s.tol)
    (s := (mat (fun r c => (fin (B r c) : Num binary64)),
      List.range (sizeColumn (mat fun r c => (fin (B r c) : Num binary64))), true))
    (fun i t' => ∃ (M : Fin n → Fin n → Num binary64) (p : Fin n → Nat) (ok : Bool), t' = (mat M, vec p, ok) ∧
      (ok = true → ∃ N : Fin n → Fin n → ℚ, M = (fun r c => fin (N r c)) ∧ BandState B β a i β i N p ∧
        (0 < i → 1 / 2 ^ 46 ≤ a) ∧ ∀ k : Fin n, k.1 < i → t ≤ |N k k|))
    ⟨_, fun r => r.1, true, by rw [sizeColumn_mat (by omega), vec_range], fun _ => ⟨B, rfl,
      ⟨hdouble, fun r c h => absurd h (Nat.not_lt_zero _), fun r c _ => by simpa [updates] using ha r c, fun r c _ => rfl,
        fun r c h1 h2 => hB r c (.inr (by omega)), fun c h => absurd h (Nat.not_lt_zero _), fun r _ => rfl,
        fun r h => by omega⟩, fun h => absurd h (Nat.lt_irrefl _), fun k hk => absurd hk (Nat.not_lt_zero _)⟩⟩ (by
      rintro i t' hi ⟨M, p, ok, rfl, h3⟩
      cases ok with
      | false => exact ⟨_, rfl, M, p, false, rfl, by simp⟩
      | true =>
        obtain ⟨N, rfl, h4, h4a, h5⟩ := h3 rfl
        have ha0 : 0 ≤ a := (abs_nonneg _).trans (ha ⟨i, hi⟩ ⟨i, hi⟩)
        have hpow : ∀ {e e' : Nat}, e ≤ e' → (4 : ℚ) ^ e * a ≤ 4 ^ e' * a := fun he =>
          mul_le_mul_of_nonneg_right (pow_le_pow_right₀ (by norm_num) he) ha0
        have hcol : ∀ r : Fin n, ⟨i, hi⟩ ≤ r → (fin (N r ⟨i, hi⟩) : Num binary64) = fin (N r ⟨i, hi⟩) ∧
            |N r ⟨i, hi⟩| ≤ 4 ^ (2 * β) * a := by
          intro r hr
          have hr' : i ≤ r.1 := hr
          exact ⟨rfl, (h4.bound r ⟨i, hi⟩ (by simp)).trans (hpow (updates_le (min_le_left _ _)))⟩
        obtain ⟨m, hm, hsw, hnear⟩ := pivotStep_num fine_binary64 (a := 4 ^ (2 * β) * a) (by
          refine le_trans ?_ hR
          rw [pow_succ]
          linarith) (fun r c => (fin (N r c) : Num binary64)) (fun r => N r ⟨i, hi⟩) p ⟨i, hi⟩ hcol
        have hpiv : (fin (N (Equiv.swap ⟨i, hi⟩ m ⟨i, hi⟩) ⟨i, hi⟩) : Num binary64) = fin (N m ⟨i, hi⟩) := by
          rw [Equiv.swap_apply_left]
        have e1 : (if true then pivotStep (Num.arith binary64) i (mat (fun r c => (fin (N r c) : Num binary64)), vec p)
            else pure (mat (fun r c => (fin (N r c) : Num binary64)), vec p)) =
            .ok (mat fun r c => (fin (N (Equiv.swap ⟨i, hi⟩ m r) c) : Num binary64), vec fun r => p (Equiv.swap ⟨i, hi⟩ m r)) := hsw
        by_cases hsmall : |N m ⟨i, hi⟩| < t
        · refine ⟨(mat fun r c => (fin (N (Equiv.swap ⟨i, hi⟩ m r) c) : Num binary64), vec fun r => p (Equiv.swap ⟨i, hi⟩ m r), false),
            ?_, _, _, false, rfl, by simp⟩
          have hlt : (Num.arith binary64).lt ((Num.arith binary64).abs (fin (N m ⟨i, hi⟩) : Num binary64)) s.tol = true := by
            rw [hs]
            show decide (|N m ⟨i, hi⟩| < t) = true
            simpa using hsmall
          unfold factoriseBody
          simp only [if_true] at e1
          simp only [if_true, e1, Out.ok_bind, rd2_mat _ hi hi, hpiv, hlt]
          rfl
        · have htm : t ≤ |N m ⟨i, hi⟩| := not_lt.mp hsmall
          have hτ : (0 : ℚ) < 1 / 2 ^ 46 := by norm_num
          have hnz : N m ⟨i, hi⟩ ≠ 0 := by
            intro h0
            rw [h0, abs_zero] at htm
            linarith
          have hm' : m.1 ≤ i + β := by
            by_contra hc
            refine hnz ?_
            rw [h4.fresh m _ (by omega)]
            exact hB m _ (.inl (by show i + β < m.1; omega))
          have haτ : 1 / 2 ^ 46 ≤ a := by
            by_cases h0 : 0 < i
            · exact h4a h0
            · have := h4.bound m ⟨i, hi⟩ (by simp)
              rw [show updates β i m.1 (⟨i, hi⟩ : Fin n).1 = 0 by unfold updates; simp only; omega, pow_zero, one_mul] at this
              linarith
          have hS := band_swap hB h4 hm hm'
          obtain ⟨N', g1, g2, g3⟩ := band_elim hB haτ hR hS (by rw [Equiv.swap_apply_left]; exact hnz) (by
            intro r hr
            rw [Equiv.swap_apply_left]
            have h9 := hnear (Equiv.swap ⟨i, hi⟩ m r) ((swap_ge hm).mpr hr.le)
            have h10 := ht.trans htm
            linarith)
          refine ⟨(mat (elim (fun r c => (fin (N (Equiv.swap ⟨i, hi⟩ m r) c) : Num binary64)) ⟨i, hi⟩),
            vec fun r => p (Equiv.swap ⟨i, hi⟩ m r), true), ?_, _, _, true, rfl, fun _ => ⟨N', g1, g3, fun _ => haτ, ?_⟩⟩
          · have hlt : (Num.arith binary64).lt ((Num.arith binary64).abs (fin (N m ⟨i, hi⟩) : Num binary64)) s.tol = false := by
              rw [hs]
              show decide (|N m ⟨i, hi⟩| < t) = false
              simpa using hsmall
            unfold factoriseBody
            simp only [if_true] at e1
            simp only [if_true, e1, Out.ok_bind, rd2_mat _ hi hi, hpiv, hlt, Bool.false_eq_true, if_false, mat_length]
            have := eliminate_ok (fun r c => (fin (N (Equiv.swap ⟨i, hi⟩ m r) c) : Num binary64)) ⟨i, hi⟩
            simp only at this
            rw [this]
            rfl
          · intro k hk
            rw [g2 k (show k.1 ≤ i by omega)]
            by_cases hki : k.1 < i
            · simp only [swap_low hm (show k < ⟨i, hi⟩ from hki)]
              exact h5 k hki
            · obtain rfl : k = ⟨i, hi⟩ := Fin.ext (by show k.1 = i; omega)
              simp only [Equiv.swap_apply_left]
              exact htm)
  unfold factorise at hf
  rw [mat_length] at hf
  simp only [if_true] at hf
  rw [h2, Out.ok_bind] at hf
  simp only [Out.pure_eq, Out.ok.injEq, Prod.mk.injEq] at hf
  obtain ⟨rfl, rfl⟩ := hf
  obtain ⟨N, rfl, h4, h4a, h5⟩ := h3 rfl
  refine ⟨N, p, rfl, rfl, fun r c hc => h4.mult r c c.2 hc, ?_, ?_, fun c => h4.few c c.2, ?_, fun k => h5 k k.2⟩
  · intro r c hrc
    have hrc' : r.1 ≤ c.1 := hrc
    have ha0 : 0 ≤ a := (abs_nonneg _).trans (ha r c)
    refine (h4.bound r c fun h => absurd h.2 (not_lt.mpr hrc)).trans ?_
    exact mul_le_mul_of_nonneg_right (pow_le_pow_right₀ (by norm_num) (updates_le (by omega))) ha0
  · intro r c hrc
    have := r.2
    exact h4.zero r c (by omega) (by omega)
  · intro r
    have := r.2
    have := h4.pnear r (by omega)
    omega

end

/-- A sum over a row of the upper factor has few terms. -/
theorem band_row_sum {n β : Nat} {M : Fin n → Fin n → ℚ} (hz : ∀ r c : Fin n, r.1 + 2 * β < c.1 → M r c = 0) (k : Fin n) (f : Fin n → ℚ)
    {b : ℚ} (hb : ∀ c, |upperPart M k c| * f c ≤ b) (hb0 : 0 ≤ b) :
    ∑ c, |upperPart M k c| * f c ≤ (2 * β + 1 : Nat) * b := by
  have h1 : ∑ c, |upperPart M k c| * f c = ∑ c ∈ Finset.univ.filter (fun c : Fin n => k.1 ≤ c.1 ∧ c.1 ≤ k.1 + 2 * β),
      |upperPart M k c| * f c := by
    symm
    refine Finset.sum_subset (Finset.filter_subset _ _) ?_
    intro c _ hc
    simp only [Finset.mem_filter, Finset.mem_univ, true_and, not_and_or, not_le] at hc
    have : upperPart M k c = 0 := by
      unfold upperPart
      split
      · rename_i hkc
        have : k.1 ≤ c.1 := hkc
        exact hz k c (by omega)
      · rfl
    rw [this, abs_zero, zero_mul]
  rw [h1]
  refine (Finset.sum_le_card_nsmul _ _ b fun c _ => hb c).trans ?_
  rw [nsmul_eq_mul]
  refine mul_le_mul_of_nonneg_right ?_ hb0
  have h2 : (Finset.univ.filter fun c : Fin n => k.1 ≤ c.1 ∧ c.1 ≤ k.1 + 2 * β).card ≤ (Finset.Icc k.1 (k.1 + 2 * β)).card := by
    refine Finset.card_le_card_of_injOn Fin.val ?_ (fun _ _ _ _ e => Fin.ext e)
    intro r hr
    simpa using hr
  rw [Nat.card_Icc] at h2
  exact_mod_cast h2.trans (by omega)

theorem band_bounds {n m G X w S1 S2 S3 : ℚ} (hn1 : 1 ≤ n) (hm1 : 1 ≤ m) (hG2 : 1 ≤ 2 ^ 46 * G) (hG0 : 0 < G) (hX0 : 0 ≤ X)
    (q2 : 0 < w) (q3 : w ≤ 1) (s1 : S1 ≤ n * (5 / 2 * (m * (G * X)))) (s2 : S2 ≤ n * (5 / 2 * (1 + G)))
    (s3 : S3 ≤ n * ((1 + G) * X)) :
    n / 2 ^ 50 * S1 + 6 * n * (w / 2 ^ 115) * (1 + 2 * S2 + S3) ≤ 4 / 2 ^ 50 * (n ^ 2 * m * G) * (X + w) := by
  have hn0 : 0 ≤ n := by linarith
  have hb : 1 + 2 * S2 + S3 ≤ 2 ^ 47 * (n * m * G) * (6 + X) := by
    have g1 : 1 + G ≤ 2 ^ 47 * G := by linarith
    have g2 : 2 ^ 47 * G ≤ 2 ^ 47 * G * m := le_mul_of_one_le_right (by positivity) hm1
    have g3 : n * (1 + G) ≤ n * (2 ^ 47 * G) := mul_le_mul_of_nonneg_left g1 hn0
    have g4 : n * (2 ^ 47 * G) ≤ n * (2 ^ 47 * G * m) := mul_le_mul_of_nonneg_left g2 hn0
    have g5 : n * (2 ^ 47 * G * m) = 2 ^ 47 * (n * m * G) := by ring
    have g6 : n * (1 + G) ≤ 2 ^ 47 * (n * m * G) := by linarith
    have g7 := mul_le_mul_of_nonneg_right g6 hX0
    have g9 : 1 * (1 + G) ≤ n * (1 + G) := mul_le_mul_of_nonneg_right hn1 (by linarith)
    have g8 : 1 ≤ 2 ^ 47 * (n * m * G) := by linarith
    linarith
  have t1 : n / 2 ^ 50 * S1 ≤ n / 2 ^ 50 * (n * (5 / 2 * (m * (G * X)))) := mul_le_mul_of_nonneg_left s1 (by positivity)
  have t3 : 6 * n * (w / 2 ^ 115) * (1 + 2 * S2 + S3) ≤ 6 * n * (w / 2 ^ 115) * (2 ^ 47 * (n * m * G) * (6 + X)) :=
    mul_le_mul_of_nonneg_left hb (by positivity)
  refine (add_le_add t1 t3).trans ?_
  have hV : 0 < n ^ 2 * m * G := by positivity
  have e1 : n / 2 ^ 50 * (n * (5 / 2 * (m * (G * X)))) = 5 / 2 / 2 ^ 50 * (n ^ 2 * m * G * X) := by ring
  have e2 : 6 * n * (w / 2 ^ 115) * (2 ^ 47 * (n * m * G) * (6 + X)) =
      36 / 2 ^ 68 * (n ^ 2 * m * G * w) + 6 / 2 ^ 68 * (n ^ 2 * m * G * X * w) := by ring
  have e3 : 4 / 2 ^ 50 * (n ^ 2 * m * G) * (X + w) = 4 / 2 ^ 50 * (n ^ 2 * m * G * X) + 4 / 2 ^ 50 * (n ^ 2 * m * G * w) := by ring
  rw [e1, e2, e3]
  have m1 : 0 ≤ n ^ 2 * m * G * X := mul_nonneg hV.le hX0
  have m2 : 0 ≤ n ^ 2 * m * G * w := mul_nonneg hV.le q2.le
  have m3 : n ^ 2 * m * G * X * w ≤ n ^ 2 * m * G * X * 1 := mul_le_mul_of_nonneg_left q3 m1
  linarith

/-- C212, the residual: for a fixed band it grows with the square of the size at most, where C121 has an exponential. -/
theorem c212_residual (s s' : Lu (Num binary64)) {t : ℚ} (ht : 64 * (1 / 2 ^ 52) ≤ t) (hs : s.tol = fin t) {n β : Nat}
    (hn : n ≤ 2 ^ 52) (B : Fin n → Fin n → ℚ) {a : ℚ} (hB : Band β B) (hdouble : ∀ r c, binary64 (B r c) = .fin (B r c))
    (ha : ∀ r c, |B r c| ≤ a) (hR : 4 ^ (2 * β + 1) * a + 3 ≤ 2 ^ 1023)
    (hf : factorise (Num.arith binary64) true s (mat fun r c => (fin (B r c) : Num binary64)) = .ok (s', true))
    (d x : Fin n → ℚ) (x0 : List (Num binary64)) {X : ℚ} (hX : ∀ c, |x c| ≤ X)
    (hx : Lu.solve true s' x0 (some (vec fun r => (fin (d r) : Num binary64))) =
      .ok (vec (fun r => (fin (x r) : Num binary64)), true, 1)) (r : Fin n) :
    |d r - ∑ c, B r c * x c| ≤ n ^ 2 * (2 * β + 1) * 4 ^ (2 * β + 1) / 2 ^ 50 * a * (X + 1 / 2 ^ 960) := by
  obtain ⟨M, -, h1, -, h2, h3, hz, -, -, h4⟩ := c212_factors s s' ht hs hB hdouble ha hR hf
  have e : (64 * (1 / 2 ^ 52) : ℚ) = 1 / 2 ^ 46 := by norm_num
  rw [e] at ht
  have ht0 : 0 < t := lt_of_lt_of_le (by norm_num) ht
  obtain ⟨p, -, h5⟩ := c103_partial true s s' ht0 hs hn B hf M h1
  have h6 := h5 d x x0 hx (p.symm r)
  rw [Equiv.apply_symm_apply] at h6
  generalize p.symm r = r' at *
  refine h6.trans ?_
  have hX0 : 0 ≤ X := (abs_nonneg _).trans (hX r)
  have hL : ∀ k, |lowerPart M r' k| ≤ 5 / 2 := by
    intro k
    unfold lowerPart
    split
    · exact h2 _ _ ‹_›
    · split <;> norm_num
  have hG1 : 1 / 2 ^ 46 ≤ 4 ^ (2 * β) * a := ht.trans ((h4 r).trans (h3 r r le_rfl))
  have hU : ∀ k c, |upperPart M k c| ≤ 4 ^ (2 * β) * a := by
    intro k c
    unfold upperPart
    split
    · exact h3 _ _ ‹_›
    · have : (0 : ℚ) < 1 / 2 ^ 46 := by norm_num
      rw [abs_zero]
      linarith
  have hn1 : (1 : ℚ) ≤ n := by
    have : 1 ≤ n := by have := r.2; omega
    exact_mod_cast this
  have hm1 : (1 : ℚ) ≤ (2 * β + 1 : Nat) := by exact_mod_cast Nat.le_add_left _ _
  rw [show (n : ℚ) ^ 2 * (2 * β + 1) * 4 ^ (2 * β + 1) / 2 ^ 50 * a * (X + 1 / 2 ^ 960) =
    4 / 2 ^ 50 * (n ^ 2 * (2 * β + 1 : Nat) * (4 ^ (2 * β) * a)) * (X + 1 / 2 ^ 960) by push_cast; ring]
  generalize hG : 4 ^ (2 * β) * a = G at *
  have hG0 : 0 < G := lt_of_lt_of_le (by norm_num) hG1
  have hG2 : 1 ≤ 2 ^ 46 * G := by
    have := mul_le_mul_of_nonneg_left hG1 (show (0 : ℚ) ≤ 2 ^ 46 by norm_num)
    norm_num at this ⊢
    linarith
  have s1 : ∑ k, |lowerPart M r' k| * ∑ c, |upperPart M k c| * |x c| ≤ n * (5 / 2 * ((2 * β + 1 : Nat) * (G * X))) := by
    have : ∀ k ∈ Finset.univ, |lowerPart M r' k| * ∑ c, |upperPart M k c| * |x c| ≤ 5 / 2 * ((2 * β + 1 : Nat) * (G * X)) := by
      intro k _
      refine mul_le_mul (hL k) ?_ (Finset.sum_nonneg fun c _ => mul_nonneg (abs_nonneg _) (abs_nonneg _)) (by norm_num)
      exact band_row_sum hz k (fun c => |x c|) (fun c => mul_le_mul (hU k c) (hX c) (abs_nonneg _) hG0.le) (mul_nonneg hG0.le hX0)
    simpa using Finset.sum_le_card_nsmul _ _ _ this
  have hD : ∀ k, |M k k| ≤ G := fun k => h3 k k le_rfl
  have s2 : ∑ k, |lowerPart M r' k| * (1 + |M k k|) ≤ n * (5 / 2 * (1 + G)) := by
    have : ∀ k ∈ Finset.univ, |lowerPart M r' k| * (1 + |M k k|) ≤ 5 / 2 * (1 + G) := fun k _ =>
      mul_le_mul (hL k) (by linarith [hD k]) (by positivity) (by norm_num)
    simpa using Finset.sum_le_card_nsmul _ _ _ this
  have s3 : ∑ c, (1 + |M c c|) * |x c| ≤ n * ((1 + G) * X) := by
    have : ∀ c ∈ Finset.univ, (1 + |M c c|) * |x c| ≤ (1 + G) * X := fun c _ =>
      mul_le_mul (by linarith [hD c]) (hX c) (abs_nonneg _) (by linarith)
    simpa using Finset.sum_le_card_nsmul _ _ _ this
  have hκ : (6 * n / 2 ^ 1075 : ℚ) = 6 * n * (1 / 2 ^ 960 / 2 ^ 115) := by
    rw [show (2 : ℚ) ^ 1075 = 2 ^ 960 * 2 ^ 115 by rw [← pow_add], div_div, mul_one_div]
  have q2 : (0 : ℚ) < 1 / 2 ^ 960 := by positivity
  have q3 : (1 : ℚ) / 2 ^ 960 ≤ 1 := by
    rw [div_le_one (by positivity)]
    exact one_le_pow₀ (by norm_num)
  rw [hκ]
  exact band_bounds hn1 hm1 hG2 hG0 hX0 q2 q3 s1 s2 s3

open Graph in
/-- C212, lines and rings: with at most two neighbours each, after `cuthill_mckee_reverse` the elements of the factors grow by a factor of
256 at most, whatever the size and the coefficients, and the residual is small. -/
theorem c212_two (sort : List (Nat × Nat) → List (Nat × Nat)) (hsort : DegreeSort sort) (g : Graph) (h : Reachable false g)
    (root : Nat) (hroot : root < g.sizeVertex ∨ root = sizeMax ∧ 0 < g.sizeVertex) (p : List Nat)
    (hp : g.cuthillMckee sort root = .ok p) (htwo : ∀ v d, g.degree v = .ok d → d ≤ 2) :
    ∃ q g', g.cuthillMckeeReverse sort root = .ok q ∧ g.reorder q = .ok (g', g) ∧
    ∀ (n : Nat) (_ : n ≤ 2 ^ 52) (B : Fin n → Fin n → ℚ) (a : ℚ), (∀ r c, binary64 (B r c) = .fin (B r c)) → Along g' B →
    (∀ r c, |B r c| ≤ a) → a ≤ 2 ^ 1000 →
    ∀ (s s' : Lu (Num binary64)) {t : ℚ}, 64 * (1 / 2 ^ 52) ≤ t → s.tol = fin t →
    factorise (Num.arith binary64) true s (mat fun r c => (fin (B r c) : Num binary64)) = .ok (s', true) →
    (∃ M : Fin n → Fin n → ℚ, s'.lu = mat (fun r c => (fin (M r c) : Num binary64)) ∧ (∀ r c, c < r → |M r c| ≤ 5 / 2) ∧
      ∀ r c, r ≤ c → |M r c| ≤ 256 * a) ∧
    ∀ (d x : Fin n → ℚ) (x0 : List (Num binary64)) (X : ℚ), (∀ c, |x c| ≤ X) →
    Lu.solve true s' x0 (some (vec fun r => (fin (d r) : Num binary64))) =
      .ok (vec (fun r => (fin (x r) : Num binary64)), true, 1) →
    ∀ r, |d r - ∑ c, B r c * x c| ≤ 5 * n ^ 2 / 2 ^ 40 * a * (X + 1 / 2 ^ 960) := by
  obtain ⟨g', q, g'', -, h2, h3, -, -, h6⟩ := c205_cuthill_mckee sort hsort g h root hroot p hp
  have hqp : q.Perm (List.range g.sizeVertex) := by
    obtain ⟨q1, k1, k2, -⟩ := (c20_reverse sort hsort g h root).1 p hp
    obtain rfl := Out.ok.inj (k1.symm.trans h2)
    exact k2
  obtain ⟨g1, m1, r1, -⟩ := reorder_spec h hqp
  obtain rfl : g1 = g'' := congrArg Prod.fst (Out.ok.inj (m1.symm.trans h3))
  refine ⟨q, g1, h2, h3, fun n hn B a hB hA ha hbig s s' t ht hs hf => ?_⟩
  have hband : Band 2 B := along_band r1 (h6 htwo).2 hA
  have hR : 4 ^ (2 * 2 + 1) * a + 3 ≤ 2 ^ 1023 := by
    rw [show (2 : ℚ) ^ 1023 = 2 ^ 23 * 2 ^ 1000 by rw [← pow_add]]
    have h1 : (1 : ℚ) ≤ 2 ^ 1000 := one_le_pow₀ (by norm_num)
    generalize (2 : ℚ) ^ 1000 = w at *
    norm_num
    linarith
  constructor
  · obtain ⟨M, -, k1, -, k2, k3, -⟩ := c212_factors s s' ht hs hband hB ha hR hf
    refine ⟨M, k1, k2, fun r c hrc => ?_⟩
    have := k3 r c hrc
    norm_num at this
    exact this
  · intro d x x0 X hX hx r
    refine (c212_residual s s' ht hs hn B hband hB ha hR hf d x x0 hX hx r).trans (le_of_eq ?_)
    generalize (1 / 2 ^ 960 : ℚ) = w
    push_cast
    ring

/-- Three unknowns in a row, with small diagonal elements: the rows are exchanged, and the first row gets a third element. -/
def rowThree : Fin 3 → Fin 3 → ℚ := ![![1, 2, 0], ![2, 0, 2], ![0, 2, 1]]

example : Band 1 rowThree ∧ (∀ r c, binary64 (rowThree r c) = .fin (rowThree r c)) ∧ (∀ r c, |rowThree r c| ≤ 2) ∧
    (4 : ℚ) ^ (2 * 1 + 1) * 2 + 3 ≤ 2 ^ 1023 ∧ freshDouble.tol = fin (64 * (1 / 2 ^ 52)) ∧
    factorise (Num.arith binary64) true freshDouble (mat fun r c => (fin (rowThree r c) : Num binary64)) =
      .ok (⟨true, (Num.arith binary64).tol,
        [[fin 2, fin 0, fin 2], [fin (1 / 2), fin 2, fin (-1)], [fin 0, fin 1, fin 2]], [1, 0, 2]⟩, true) ∧
    Lu.solve true ⟨true, (Num.arith binary64).tol,
        [[fin 2, fin 0, fin 2], [fin (1 / 2), fin 2, fin (-1)], [fin 0, fin 1, fin 2]], [1, 0, 2]⟩ []
      (some (vec fun r => (fin (![3, 4, 3] r) : Num binary64))) = .ok (vec (fun r => (fin (![1, 1, 1] r) : Num binary64)), true, 1) := by
  refine ⟨by unfold Band; decide +kernel, by decide +kernel, by decide +kernel,
    le_trans (by norm_num) (pow_le_pow_right₀ (by norm_num) (show 10 ≤ 1023 by norm_num)), rfl, by decide +kernel, by decide +kernel⟩

/-- The ring of C205: after `cuthill_mckee_reverse` its matrix with small diagonal elements can be factorised with exchanges. -/
def ringFiveMatrix : Fin 5 → Fin 5 → ℚ := ![![1, 2, 2, 0, 0], ![2, 1, 0, 2, 0], ![2, 0, 1, 0, 2], ![0, 2, 0, 1, 2], ![0, 0, 2, 2, 1]]

open Graph in
example : Reachable false ringFive ∧ (∀ v d, ringFive.degree v = .ok d → d ≤ 2) ∧
    ringFive.cuthillMckee (List.insertionSort fun a b => a.2 ≤ b.2) sizeMax = .ok [0, 1, 3, 4, 2] ∧
    ringFive.cuthillMckeeReverse (List.insertionSort fun a b => a.2 ≤ b.2) sizeMax = .ok [4, 3, 1, 0, 2] ∧
    ringFive.reorder [4, 3, 1, 0, 2] = .ok (⟨[1, 2, 0, 3, 0, 4, 1, 4, 2, 3], [0, 2, 4, 6, 8, 10]⟩, ringFive) ∧
    (∀ r c : Fin 5, ringFiveMatrix r c ≠ 0 ↔ r = c ∨
      (r.1, c.1) ∈ [(0, 1), (0, 2), (1, 0), (1, 3), (2, 0), (2, 4), (3, 1), (3, 4), (4, 2), (4, 3)]) ∧
    (match factorise (Num.arith binary64) true freshDouble (mat fun r c => (fin (ringFiveMatrix r c) : Num binary64)) with
      | .ok (s', true) => s'.piv.head? == some 1
      | _ => false) = true := by
  refine ⟨ringFive_reachable, fun v d hd => ?_, by decide +kernel, by decide +kernel, by decide +kernel, by decide +kernel, by decide +kernel⟩
  have h : ∀ v : Fin 5, ringFive.degree v = .ok 2 := by decide +kernel
  by_cases hv : v < 5
  · rw [h ⟨v, hv⟩] at hd
    cases hd
    exact le_rfl
  · have hsz : ringFive.sizeVertex = 5 := rfl
    unfold Graph.degree at hd
    rw [show (decide (v < ringFive.sizeVertex)) = false by simpa [hsz] using hv] at hd
    cases hd

end Disa.Props
