import Verif.Props.LuBand
import Verif.Props.LuAccurateFused

/-!
# Property C226: with fused operations, rounding errors of the direct solver grow with the bandwidth, too
-/

namespace Disa.Props

open Disa Spec Dense Num Lu Fused

variable {fuse : Hist → Hist → Hist → Bool} {n : Nat}

/-! ### Terms that are zero -/

/-- A factor is zero and the other one is finite. -/
def ZeroTerm (a b : Fused binary64 fuse) : Prop := a.get = .fin 0 ∧ b.IsFin ∨ a.IsFin ∧ b.get = .fin 0

theorem sub_zeroF {x a b : Fused binary64 fuse} (hx : IsDouble x.get) (h : ZeroTerm a b) : (x - a * b).get = x.get := by
  have e : (a * b).operand x.hist = .fin 0 := by
    show Fl.mul (if fuse x.hist a.hist b.hist then .fin else binary64) a.get b.get = .fin 0
    have hz : ∀ p : ℚ, p = 0 → (if fuse x.hist a.hist b.hist = true then Fl.fin else binary64) p = .fin 0 := by
      rintro _ rfl
      split
      · rfl
      · exact binary64_zero
    rcases h with ⟨h1, h2⟩ | ⟨h1, h2⟩
    · rw [h1, h2]
      exact hz _ (zero_mul _)
    · rw [h1, h2]
      exact hz _ (mul_zero _)
  show Fl.sub binary64 x.get ((a * b).operand x.hist) = x.get
  rw [e]
  exact hx.less_zero

theorem double_subF {x y : Fused binary64 fuse} (h : (x - y).IsFin) : IsDouble (x - y).get :=
  double_sub (a := x.get) (b := y.operand x.hist) ⟨_, h⟩

theorem less_split {K : Type} [Sub K] (v : K) (f : Fin n → K) (a m : Nat) : less v f 0 (a + m) = less (less v f 0 a) f a m := by
  induction m with
  | zero => rfl
  | succ m ih =>
    rw [← Nat.add_assoc, less, ih]
    conv_rhs => rw [less]
    simp only [Nat.zero_add]

/-- Leading terms that are zero. -/
theorem less_leadF {v : Fused binary64 fuse} (hv : IsDouble v.get) {f g : Fin n → Fused binary64 fuse} {a : Nat}
    (h0 : ∀ c : Fin n, c.1 < a → ZeroTerm (f c) (g c)) : (less v (fun c => f c * g c) 0 a).get = v.get := by
  induction a with
  | zero => rfl
  | succ a ih =>
    have ih := ih fun c hc => h0 c (by omega)
    unfold less
    split
    · rw [sub_zeroF (by rw [ih]; exact hv) (h0 _ (by simp)), ih]
    · exact ih

theorem less_doubleF {v : Fused binary64 fuse} (hv : IsDouble v.get) {f : Fin n → Fused binary64 fuse} {a m : Nat}
    (h : (less v f a m).IsFin) : IsDouble (less v f a m).get := by
  induction m with
  | zero => exact hv
  | succ m ih =>
    unfold less at h ⊢
    split at h
    · rename_i hm
      rw [dif_pos hm]
      exact double_subF h
    · rename_i hm
      rw [dif_neg hm]
      exact ih h

theorem less_finiteF {v : Fused binary64 fuse} {f g : Fin n → Fused binary64 fuse} {a m : Nat}
    (h : (less v (fun c => f c * g c) a m).IsFin) {l : Nat} (hl : l ≤ m) : (less v (fun c => f c * g c) a l).IsFin := by
  induction m with
  | zero =>
    obtain rfl : l = 0 := by omega
    exact h
  | succ m ih =>
    by_cases hlm : l = m + 1
    · rwa [hlm]
    · refine ih ?_ (by omega)
      unfold less at h
      split at h
      · exact (sub_mul_fin rounds_binary64 h).1
      · exact h

/-- Last terms that are zero. -/
theorem less_lastF {v : Fused binary64 fuse} (hv : IsDouble v.get) {f g : Fin n → Fused binary64 fuse} {a m l : Nat} (hl : l ≤ m)
    (h0 : ∀ c : Fin n, a + l ≤ c.1 → ZeroTerm (f c) (g c)) (h : (less v (fun c => f c * g c) a m).IsFin) :
    (less v (fun c => f c * g c) a m).get = (less v (fun c => f c * g c) a l).get := by
  induction m with
  | zero =>
    obtain rfl : l = 0 := by omega
    rfl
  | succ m ih =>
    by_cases hlm : l = m + 1
    · rw [hlm]
    · have hm := less_finiteF h (l := m) (by omega)
      rw [less]
      split
      · rw [sub_zeroF (less_doubleF hv hm) (h0 _ (by simp; omega))]
        exact ih (by omega) hm
      · exact ih (by omega) hm

/-- The error with leading terms that are zero. -/
theorem less_fused_lead {v : Fused binary64 fuse} (hv : IsDouble v.get) (f g : Fin n → Fused binary64 fuse) {a m : Nat} (hn : a + m ≤ n)
    (h0 : ∀ c : Fin n, c.1 < a → ZeroTerm (f c) (g c)) (h : (less v (fun c => f c * g c) 0 (a + m)).IsFin) :
    |v.val - Lu.psum (fun c => (f c).val * (g c).val) a m - (less v (fun c => f c * g c) 0 (a + m)).val| ≤
      (gain u64 ^ m - 1) * (Lu.psum (fun c => |(f c).val * (g c).val|) a m + |(less v (fun c => f c * g c) 0 (a + m)).val|) +
        small u64 η64 m := by
  rw [less_split] at h ⊢
  obtain ⟨-, -, i3⟩ := less_fused rounds_binary64 (by norm_num) _ f g a m hn h
  have e : (less v (fun c => f c * g c) 0 a).val = v.val := by
    unfold Fused.val
    rw [less_leadF hv h0]
  rwa [e] at i3

/-- The factors have no elements outside of the band. -/
theorem band_factorsF {β : Nat} {B M : Fin n → Fin n → ℚ} {A N : Fin n → Fin n → Fused binary64 fuse} (hB : Band β B)
    (hA : ∀ r c, (A r c).get = .fin (B r c)) (hN : ∀ r c, (N r c).get = .fin (M r c)) (hd : ∀ k, M k k ≠ 0)
    (hc : ∀ r c : Fin n, (c < r → N r c = less (A r c) (fun k => N r k * N k c) 0 c.1 / N c c) ∧
      (r ≤ c → N r c = less (A r c) (fun k => N r k * N k c) 0 r.1)) : Band β M := by
  have hNf : ∀ r c, (N r c).IsFin := fun r c => (isFin_of (hN r c)).1
  have key : ∀ (l : Nat) (r c : Fin n), min r.1 c.1 = l → c.1 + β < r.1 ∨ r.1 + β < c.1 → M r c = 0 := by
    intro l
    induction l using Nat.strong_induction_on with
    | _ l ih =>
      intro r c hl h
      have hz := hA r c
      rw [hB r c h] at hz
      have hv : IsDouble (A r c).get := ⟨0, hz, binary64_zero⟩
      rcases h with h | h
      · have h1 := (hc r c).1 (show c.1 < r.1 by omega)
        have h2 := less_leadF hv (f := fun k => N r k) (g := fun k => N k c) (a := c.1) fun k hk => .inl ⟨by
          rw [hN, ih k.1 (by omega) r k (by omega) (.inl (by omega))], hNf _ _⟩
        have h3 := congrArg Fused.get h1
        rw [hN] at h3
        have h4 : (less (A r c) (fun k => N r k * N k c) 0 c.1 / N c c).get = Fl.div binary64 (.fin 0) (.fin (M c c)) := by
          rw [← hN c c, ← hz, ← h2]
          rfl
        rw [h4] at h3
        exact fin_inj.mp (h3.trans (zero_div64 (hd c)))
      · have h1 := (hc r c).2 (show r.1 ≤ c.1 by omega)
        have h2 := less_leadF hv (f := fun k => N r k) (g := fun k => N k c) (a := r.1) fun k hk => .inr ⟨hNf _ _, by
          rw [hN, ih k.1 (by omega) k c (by omega) (.inr (by omega))]⟩
        rw [← h1, hN, hz] at h2
        exact (Fl.fin.injEq _ _).mp h2
  exact fun r c h => key _ r c rfl h

/-! ### The property -/

/-- C226: without pivoting, the factors of a matrix of doubles with band width `β` have no elements outside of the band, and the errors
are those of `β + 1` operations instead of `n`, whichever products are fused. -/
theorem c226_band (s s' : Lu (Fused binary64 fuse)) {t : ℚ} (ht : 0 < t) (hs : s.tol.get = .fin t) {β : Nat}
    (A : Fin n → Fin n → Fused binary64 fuse) (B : Fin n → Fin n → ℚ) (hA : ∀ r c, (A r c).get = .fin (B r c))
    (hB : ∀ r c, binary64 (B r c) = .fin (B r c)) (hβ : Band β B)
    (hf : factorise (Fused.arith binary64 fuse) false s (mat A) = .ok (s', true)) (N : Fin n → Fin n → Fused binary64 fuse)
    (hN : s'.lu = mat N) (M : Fin n → Fin n → ℚ) (hM : ∀ r c, (N r c).get = .fin (M r c)) :
    Band β M ∧
    (∀ r c, |B r c - ∑ k, lowerPart M r k * upperPart M k c| ≤
      relError u64 (β + 1) * (∑ k, |lowerPart M r k| * |upperPart M k c|) + absError u64 η64 (β + 1) * (1 + |M c c|)) ∧
    ∀ (b X : Fin n → Fused binary64 fuse) (d x : Fin n → ℚ) (x0 : List (Fused binary64 fuse)), (∀ r, (b r).get = .fin (d r)) →
      (∀ r, binary64 (d r) = .fin (d r)) → Lu.solve false s' x0 (some (vec b)) = .ok (vec X, true, 1) →
      (∀ r, (X r).get = .fin (x r)) →
      ∀ r, |d r - ∑ c, B r c * x c| ≤
        (3 * relError u64 (β + 1) + relError u64 (β + 1) ^ 2) * (∑ k, |lowerPart M r k| * ∑ c, |upperPart M k c| * |x c|) +
        absError u64 η64 (β + 1) * (1 + (1 + relError u64 (β + 1)) * (∑ k, |lowerPart M r k| * (1 + |M k k|)) +
          ∑ c, (1 + |M c c|) * |x c|) := by
  have h := rounds_binary64
  have h1 : u64 < 1 := by norm_num
  have hu : (0 : ℚ) ≤ u64 := by norm_num
  have hη : (0 : ℚ) ≤ η64 := by positivity
  have hNf : ∀ r c, (N r c).IsFin := fun r c => (isFin_of (hM r c)).1
  have hMv : ∀ r c, (N r c).val = M r c := fun r c => (isFin_of (hM r c)).2
  have hAv : ∀ r c, (A r c).val = B r c := fun r c => (isFin_of (hA r c)).2
  obtain ⟨p, N', st, ok, e1, e2⟩ := factorise_fused h h1 false s ht hs A
  have hf' := hf
  rw [hf] at e1
  simp only [Out.ok.injEq, Prod.mk.injEq] at e1
  obtain ⟨rfl, rfl⟩ := e1
  have hR := e2 rfl
  obtain rfl : N' = N := mat_inj.mp hN
  have hd0 : ∀ k, M k k ≠ 0 := fun k => by
    rw [← hMv]
    exact ne_zero_of_acceptedF ht hs (hR.diag k k.2) (hNf k k)
  have hc := factorise_closed (Fused.arith binary64 fuse) s _ A N' hf' rfl
  have hBM : Band β M := band_factorsF hβ hA hM hd0 hc
  have hBd : ∀ r c, IsDouble (A r c).get := fun r c => ⟨_, hA r c, hB r c⟩
  have hzero : ∀ {r c : Fin n} {z : Fused binary64 fuse}, M r c = 0 → z.IsFin → ZeroTerm (N' r c) z := fun hm hz => .inl ⟨by
    rw [hM, hm], hz⟩
  have hwide : ∀ {m : Nat} {T v : ℚ}, m ≤ β + 1 → 0 ≤ T → v ≤ (gain u64 ^ m - 1) * T + small u64 η64 m →
      v ≤ relError u64 (β + 1) * T + absError u64 η64 (β + 1) := by
    intro m T v hm hT hv
    rw [relError_eq, absError_eq]
    have t1 := mul_le_mul_of_nonneg_right (sub_le_sub_right (gain_mono hm) 1) hT
    have t2 := small_mono hu h1 hη hm
    linarith
  have hprod : ∀ r c, |B r c - ∑ k, lowerPart M r k * upperPart M k c| ≤
      relError u64 (β + 1) * (∑ k, |lowerPart M r k| * |upperPart M k c|) + absError u64 η64 (β + 1) * (1 + |M c c|) := by
    intro r c
    rw [product_abs]
    have hcc := abs_nonneg (M c c)
    have ha0 : 0 ≤ absError u64 η64 (β + 1) := by rw [absError_eq]; exact small_nonneg hu h1 hη _
    by_cases hrc : r ≤ c
    · have hrc' : r.1 ≤ c.1 := hrc
      have e := (hc r c).2 hrc
      have hlead : ∀ k : Fin n, k.1 < r.1 - β → M r k = 0 := fun k hk => hBM r k (.inl (by omega))
      have hfin := hNf r c
      have hval := hMv r c
      rw [e, show r.1 = (r.1 - β) + (r.1 - (r.1 - β)) by omega] at hfin hval
      have i3 := less_fused_lead (hBd r c) (fun k => N' r k) (fun k => N' k c) (by have := r.2; omega)
        (fun k hk => hzero (hlead k hk) (hNf _ _)) hfin
      rw [hval] at i3
      simp only [hMv, hAv] at i3
      rw [product_upper M hrc, product_upper _ hrc, ← sub_sub]
      rw [← psum_lead (m := r.1 - (r.1 - β)) fun k hk => by rw [hlead k hk, zero_mul],
        ← psum_lead (m := r.1 - (r.1 - β)) fun k hk => by rw [hlead k hk, zero_mul, abs_zero],
        show (r.1 - β) + (r.1 - (r.1 - β)) = r.1 by omega] at i3
      simp only [abs_mul] at i3 ⊢
      have hT : 0 ≤ Lu.psum (fun k => |M r k| * |M k c|) 0 r.1 + |M r c| :=
        add_nonneg (psum_nonneg (fun k => mul_nonneg (abs_nonneg _) (abs_nonneg _)) _ _) (abs_nonneg _)
      have := hwide (by omega) hT i3
      nlinarith
    · have hcr : c < r := not_le.mp hrc
      have hcr' : c.1 < r.1 := hcr
      have e := (hc r c).1 hcr
      have hq := hNf r c
      rw [e] at hq
      obtain ⟨f1, f2⟩ := div_isFin (hNf c c) (by rw [hMv]; exact hd0 c) hq
      rw [← e, hMv, hMv] at f2
      obtain ⟨a, ha, ha'⟩ : ∃ a, a = min c.1 (r.1 - β) ∧ a ≤ c.1 := ⟨_, rfl, by omega⟩
      have hlead : ∀ k : Fin n, k.1 < a → M r k = 0 := fun k hk => hBM r k (.inl (by omega))
      have ec : c.1 = a + (c.1 - a) := by omega
      have i3 := less_fused_lead (hBd r c) (fun k => N' r k) (fun k => N' k c) (a := a) (m := c.1 - a) (by have := c.2; omega)
        (fun k hk => hzero (hlead k hk) (hNf _ _)) (by rw [← ec]; exact f1)
      rw [← ec] at i3
      simp only [hMv, hAv] at i3
      rw [← psum_lead (m := c.1 - a) fun k hk => by rw [hlead k hk, zero_mul],
        ← psum_lead (m := c.1 - a) fun k hk => by rw [hlead k hk, zero_mul, abs_zero], ← ec] at i3
      have i4 := quot_error h h1 (c.1 - a) (hd0 c) f2 i3 (psum_nonneg (fun c => abs_nonneg _) _ _)
      rw [product_lower M hcr, product_lower _ hcr]
      simp only [abs_mul] at i4 ⊢
      have hT : 0 ≤ Lu.psum (fun k => |M r k| * |M k c|) 0 c.1 + |M r c| * |M c c| :=
        add_nonneg (psum_nonneg (fun k => mul_nonneg (abs_nonneg _) (abs_nonneg _)) _ _) (mul_nonneg (abs_nonneg _) (abs_nonneg _))
      exact widen hu h1 hη (show c.1 - a + 1 ≤ β + 1 by omega) hT hcc i4
  refine ⟨hBM, hprod, ?_⟩
  intro b X d x x0 hb hdd hx hxx
  obtain ⟨y, x', e3, hy, hx'⟩ := solve_any false { s with factorised := true, lu := mat N', piv := st } N' rfl rfl p hR.pivots
    (fun hp => (hR.none hp).2) b x0
  obtain rfl := (hR.none rfl).2
  rw [e3] at hx
  simp only [Out.ok.injEq, Prod.mk.injEq, and_true] at hx
  obtain rfl := vec_inj.mp hx
  simp only [Equiv.Perm.coe_one, id_eq] at hy
  have hxf : ∀ r, (x' r).IsFin := fun r => (isFin_of (hxx r)).1
  have hxv : ∀ r, (x' r).val = x r := fun r => (isFin_of (hxx r)).2
  have hbv : ∀ r, (b r).val = d r := fun r => (isFin_of (hb r)).2
  have hquot : ∀ r, (less (y r) (fun c => N' r c * x' c) (r.1 + 1) (n - (r.1 + 1))).IsFin ∧
      binary64 ((less (y r) (fun c => N' r c * x' c) (r.1 + 1) (n - (r.1 + 1))).val / M r r) = .fin (x r) := fun r => by
    have hq := hxf r
    rw [hx' r] at hq
    obtain ⟨f1, f2⟩ := div_isFin (hNf r r) (by rw [hMv]; exact hd0 r) hq
    rw [← hx' r, hxv, hMv] at f2
    exact ⟨f1, f2⟩
  have hyf : ∀ r, (y r).IsFin := fun r => less_finiteF (l := 0) (hquot r).1 (Nat.zero_le _)
  have hyd : ∀ r, IsDouble (y r).get := by
    intro r
    have hfin := hyf r
    rw [hy r] at hfin ⊢
    exact less_doubleF ⟨_, hb r, hdd r⟩ hfin
  have hback : ∀ r, |(y r).val - ∑ c, upperPart M r c * x c| ≤
      relError u64 (β + 1) * (∑ c, |upperPart M r c| * |x c|) + absError u64 η64 (β + 1) * (1 + |M r r|) := by
    intro r
    obtain ⟨f1, f2⟩ := hquot r
    obtain ⟨l, hl, hl'⟩ : ∃ l, l = min β (n - (r.1 + 1)) ∧ l ≤ n - (r.1 + 1) := ⟨_, rfl, by omega⟩
    have hlast : ∀ c : Fin n, r.1 + 1 + l ≤ c.1 → M r c = 0 := fun c hc' => hBM r c (.inr (by have := c.2; omega))
    have hsame := less_lastF (hyd r) (f := fun c => N' r c) (g := x') hl' (fun c hc' => hzero (hlast c hc') (hxf c)) f1
    have hsv : (less (y r) (fun c => N' r c * x' c) (r.1 + 1) (n - (r.1 + 1))).val =
        (less (y r) (fun c => N' r c * x' c) (r.1 + 1) l).val := by
      unfold Fused.val
      rw [hsame]
    obtain ⟨-, -, i3⟩ := less_fused h h1 (y r) (fun c => N' r c) x' (r.1 + 1) l (by have := r.2; omega) (less_finiteF f1 hl')
    rw [hsv] at f2
    simp only [hMv, hxv] at i3
    have i4 := quot_error h h1 l (hd0 r) f2 i3 (psum_nonneg (fun c => abs_nonneg _) _ _)
    rw [sum_upper, mul_comm (M r r), psum_last hl' fun c hc' => by rw [hlast c hc', zero_mul]]
    have q2 : ∑ c, |upperPart M r c| * |x c| = Lu.psum (fun c => |M r c * x c|) (r.1 + 1) l + |x r * M r r| := by
      have := sum_upper (fun r c => |M r c|) (fun c => |x c|) r
      rw [psum_last hl' fun c hc' => by rw [hlast c hc', abs_zero, zero_mul]] at this
      rw [abs_mul, mul_comm |x r|]
      refine Eq.trans ?_ (this.trans ?_)
      · refine Finset.sum_congr rfl fun c _ => ?_
        unfold upperPart
        split
        · rfl
        · simp
      · simp only [abs_mul]
    rw [q2]
    have hT : 0 ≤ Lu.psum (fun c => |M r c * x c|) (r.1 + 1) l + |x r * M r r| :=
      add_nonneg (psum_nonneg (fun c => abs_nonneg _) _ _) (abs_nonneg _)
    exact widen hu h1 hη (show l + 1 ≤ β + 1 by omega) hT (abs_nonneg _) i4
  have hfor : ∀ r, |d r - ∑ k, lowerPart M r k * (y k).val| ≤
      relError u64 (β + 1) * (∑ k, |lowerPart M r k| * |(y k).val|) + absError u64 η64 (β + 1) := by
    intro r
    have hlead : ∀ k : Fin n, k.1 < r.1 - β → M r k = 0 := fun k hk => hBM r k (.inl (by omega))
    have er : r.1 = (r.1 - β) + (r.1 - (r.1 - β)) := by omega
    have hfin := hyf r
    have hval : (y r).val = (less (b r) (fun c => N' r c * y c) 0 r.1).val := by rw [← hy r]
    rw [hy r] at hfin
    have i3 := less_fused_lead (v := b r) ⟨_, hb r, hdd r⟩ (fun c => N' r c) y (a := r.1 - β) (m := r.1 - (r.1 - β))
      (by have := r.2; omega) (fun k hk => hzero (hlead k hk) (hyf k)) (by rw [← er]; exact hfin)
    rw [← er, ← hval] at i3
    simp only [hMv, hbv] at i3
    rw [sum_lower, ← sub_sub]
    have q2 : ∑ k, |lowerPart M r k| * |(y k).val| = Lu.psum (fun c => |M r c * (y c).val|) 0 r.1 + |(y r).val| := by
      have := sum_lower (fun r c => |M r c|) (fun c => |(y c).val|) r
      refine Eq.trans ?_ (this.trans ?_)
      · refine Finset.sum_congr rfl fun c _ => ?_
        unfold lowerPart
        split
        · rfl
        · split <;> simp
      · simp only [abs_mul]
    rw [q2]
    rw [← psum_lead (m := r.1 - (r.1 - β)) fun k hk => by rw [hlead k hk, zero_mul],
      ← psum_lead (m := r.1 - (r.1 - β)) fun k hk => by rw [hlead k hk, zero_mul, abs_zero], ← er] at i3
    have hT : 0 ≤ Lu.psum (fun c => |M r c * (y c).val|) 0 r.1 + |(y r).val| :=
      add_nonneg (psum_nonneg (fun c => abs_nonneg _) _ _) (abs_nonneg _)
    exact hwide (by omega) hT i3
  intro r
  have hε : 0 ≤ relError u64 (β + 1) := by
    rw [relError_eq]
    have : 1 ≤ gain u64 ^ (β + 1) := one_le_pow₀ (gain_spec (u := u64) (by norm_num) (by norm_num)).1
    linarith
  have := combine (B := B) (L := lowerPart M) (U := upperPart M) (b := d) (x := x)
    (y := fun k => (y k).val) hε (fun r c => by rw [upper_diag]; exact hprod r c) hfor
    (fun k => by rw [upper_diag]; exact hback k) r
  simpa only [upper_diag] using this

/-- C226: the residual of a finite solution, with `β + 1` in the place of the number of unknowns. -/
theorem c226_residual (s s' : Lu (Fused binary64 fuse)) {t : ℚ} (ht : 0 < t) (hs : s.tol.get = .fin t) {β : Nat} (hβ' : β < 2 ^ 52)
    (A : Fin n → Fin n → Fused binary64 fuse) (B : Fin n → Fin n → ℚ) (hA : ∀ r c, (A r c).get = .fin (B r c))
    (hB : ∀ r c, binary64 (B r c) = .fin (B r c)) (hβ : Band β B)
    (hf : factorise (Fused.arith binary64 fuse) false s (mat A) = .ok (s', true)) (N : Fin n → Fin n → Fused binary64 fuse)
    (hN : s'.lu = mat N) (M : Fin n → Fin n → ℚ) (hM : ∀ r c, (N r c).get = .fin (M r c))
    (b X : Fin n → Fused binary64 fuse) (d x : Fin n → ℚ) (x0 : List (Fused binary64 fuse)) (hb : ∀ r, (b r).get = .fin (d r))
    (hd : ∀ r, binary64 (d r) = .fin (d r)) (hX : Lu.solve false s' x0 (some (vec b)) = .ok (vec X, true, 1))
    (hx : ∀ r, (X r).get = .fin (x r)) (r : Fin n) :
    |d r - ∑ c, B r c * x c| ≤ ((β + 1 : Nat) : ℚ) / 2 ^ 50 * (∑ k, |lowerPart M r k| * ∑ c, |upperPart M k c| * |x c|) +
      6 * ((β + 1 : Nat) : ℚ) / 2 ^ 1075 * (1 + 2 * (∑ k, |lowerPart M r k| * (1 + |M k k|)) + ∑ c, (1 + |M c c|) * |x c|) :=
  ((c226_band s s' ht hs A B hA hB hβ hf N hN M hM).2.2 b X d x x0 hb hd hX hx r).trans (residual_constants hβ'
    (Finset.sum_nonneg fun k _ => mul_nonneg (abs_nonneg _) (Finset.sum_nonneg fun c _ => mul_nonneg (abs_nonneg _) (abs_nonneg _)))
    (Finset.sum_nonneg fun k _ => mul_nonneg (abs_nonneg _) (add_nonneg zero_le_one (abs_nonneg _)))
    (Finset.sum_nonneg fun k _ => mul_nonneg (add_nonneg zero_le_one (abs_nonneg _)) (abs_nonneg _)))

/-- C226: a grid of n by n vertices in any numbering, reordered by `cuthill_mckee_reverse`: the residual of a system with n * n unknowns on
the grid is that of `n + 1` operations. -/
theorem c226_grid (n : Nat) (h2 : 2 ≤ n) (hn : n * n < sizeMax) (grid g : Graph)
    (hgrid : Graph.createStructured false n = .ok grid) (p : List Nat) (hp : p.Perm (List.range (n * n)))
    (hg : grid.reorder p = .ok (g, grid)) (sort : List (Nat × Nat) → List (Nat × Nat)) (hsort : Spec.DegreeSort sort) :
    ∃ q g', g.cuthillMckeeReverse sort sizeMax = .ok q ∧ g.reorder q = .ok (g', g) ∧
    ∀ (A : Fin (n * n) → Fin (n * n) → Fused binary64 fuse) (B : Fin (n * n) → Fin (n * n) → ℚ), (∀ r c, (A r c).get = .fin (B r c)) →
    (∀ r c, binary64 (B r c) = .fin (B r c)) → Along g' B →
    ∀ (s s' : Lu (Fused binary64 fuse)) {t : ℚ}, 0 < t → s.tol.get = .fin t →
    factorise (Fused.arith binary64 fuse) false s (mat A) = .ok (s', true) →
    ∀ (N : Fin (n * n) → Fin (n * n) → Fused binary64 fuse) (M : Fin (n * n) → Fin (n * n) → ℚ), s'.lu = mat N →
    (∀ r c, (N r c).get = .fin (M r c)) →
    ∀ (b X : Fin (n * n) → Fused binary64 fuse) (d x : Fin (n * n) → ℚ) (x0 : List (Fused binary64 fuse)),
    (∀ r, (b r).get = .fin (d r)) → (∀ r, binary64 (d r) = .fin (d r)) →
    Lu.solve false s' x0 (some (vec b)) = .ok (vec X, true, 1) → (∀ r, (X r).get = .fin (x r)) →
    ∀ r, |d r - ∑ c, B r c * x c| ≤ ((n + 1 : Nat) : ℚ) / 2 ^ 50 * (∑ k, |lowerPart M r k| * ∑ c, |upperPart M k c| * |x c|) +
      6 * ((n + 1 : Nat) : ℚ) / 2 ^ 1075 * (1 + 2 * (∑ k, |lowerPart M r k| * (1 + |M k k|)) + ∑ c, (1 + |M c c|) * |x c|) := by
  obtain ⟨q, q', g', g'', h3, -, -, h6, h7, h8⟩ := c166_default n h2 hn grid g hgrid p hp hg sort hsort
  have hgr := gridBy_of h2 hn hgrid hp hg
  obtain ⟨q1, k1, k2, -⟩ := (c20_reverse sort hsort g hgr.reach sizeMax).1 q h3
  obtain rfl : q1 = q' := Out.ok.inj (k1.symm.trans h6)
  have hr : Spec.Reachable false g'' := by
    refine Graph.Reachable.step hgr.reach (op := .reorder q1) ?_ (by simp [Spec.step, h7])
    show q1.Perm (List.range q1.length)
    rwa [k2.length_eq, List.length_range]
  have hlt : n < 2 ^ 52 := by
    by_contra hc
    have : 2 ^ 52 * 2 ^ 52 ≤ n * n := Nat.mul_le_mul (by omega) (by omega)
    have e : sizeMax = 2 ^ 64 - 1 := rfl
    omega
  exact ⟨q1, g'', h6, h7, fun A B hA hB hL s s' t ht hs hf N M hN hM b X d x x0 hb hd hX hx r =>
    c226_residual s s' ht hs hlt A B hA hB (along_band hr h8 hL) hf N hN M hM b X d x x0 hb hd hX hx r⟩

/-- The hypotheses hold: a matrix of bandwidth one whose factors and solution are rounded. -/
example : (factorise (Fused.arith binary64 fun _ _ _ => true) false ⟨false, (Fused.arith binary64 _).tol, [], []⟩
        [[inp 0 3, inp 1 5, inp 2 0], [inp 3 2, inp 4 7, inp 5 5], [inp 6 0, inp 7 3, inp 8 11]] >>= fun r => do
      let s ← Lu.solve false r.1 [] (some [inp 9 1, inp 10 0, inp 11 0])
      pure (r.1.lu.map fun l => l.map Fused.get, r.2, s.1.map Fused.get, s.2)) =
    .ok ([[.fin 3, .fin 5, .fin 0], [.fin (6004799503160661 / 2 ^ 53), .fin (4128299658422955 / 2 ^ 50), .fin 5],
        [.fin 0, .fin (3684763331484951 / 2 ^ 52), .fin (7778944810912675 / 2 ^ 50)]], true,
      [.fin (7347978339393967 / 2 ^ 53), .fin (-5214694305376363 / 2 ^ 54), .fin (2844378712023471 / 2 ^ 55)], true, 1) := by
  decide +kernel

end Disa.Props
