import Verif.Props.LuMonotone
import Verif.Props.LuBand

/-!
# Property C207: the direct solver without pivoting and doubles is accurate for dominant matrices
-/

namespace Disa.Props

open Disa Spec Dense Num Lu

/-! ### Numbers with rounding errors -/

/-- Numbers of which some have a value, for which quotients and differences with products have bounded errors as long as they are
in range.  The product in a difference may be rounded or exact. -/
structure Works {V : Type} [Sub V] [Mul V] [Div V] (F : Arith V) (val : V → ℚ → Prop) (u η R : ℚ) : Prop where
  u_nonneg : 0 ≤ u
  η_nonneg : 0 ≤ η
  u_small : u ≤ 1 / 2 ^ 10
  η_small : η ≤ 1 / 2 ^ 60
  quot : ∀ {x y : V} {p q : ℚ}, val x p → val y q → q ≠ 0 → |p / q| ≤ R → ∃ z, val (x / y) z ∧ |z - p / q| ≤ u * |p / q| + η
  diff : ∀ {w x y : V} {a p q : ℚ}, val w a → val x p → val y q → |a| + |p * q| + (u * |p * q| + η) ≤ R →
    ∃ r z, |r - p * q| ≤ u * |p * q| + η ∧ |z - (a - r)| ≤ u * |a - r| + η ∧ val (w - x * y) z
  below : ∀ {x y : V} {p q : ℚ}, val x p → val y q → F.lt (F.abs x) y = decide (|p| < q)

/-- Rounded numbers. -/
theorem works_num {rnd : ℚ → Fl} {u η R : ℚ} (hf : Fine rnd u η R) :
    Works (Num.arith rnd) (fun (x : Num rnd) q => x = fin q) u η R where
  u_nonneg := hf.rounds.u_nonneg
  η_nonneg := hf.rounds.η_nonneg
  u_small := hf.u_small
  η_small := hf.η_small
  quot := by
    rintro _ _ p q rfl rfl hq hR
    obtain ⟨z, hz⟩ := hf.range _ hR
    refine ⟨z, ?_, hf.rounds.error _ _ hz⟩
    show Fl.div rnd (.fin p) (.fin q) = .fin z
    simp [Fl.div, hq, hz]
  diff := by
    rintro _ _ _ a p q rfl rfl rfl hR
    have hu := hf.rounds.u_nonneg
    have hη := hf.rounds.η_nonneg
    have h0 : 0 ≤ u * |p * q| := by positivity
    obtain ⟨r, hr⟩ := hf.range (p * q) (by linarith [abs_nonneg a])
    have h1 := hf.rounds.error _ _ hr
    have h2 := abs_add_le (r - p * q) (p * q)
    rw [sub_add_cancel] at h2
    obtain ⟨z, hz⟩ := hf.range (a - r) (by linarith [abs_sub a r])
    refine ⟨r, z, h1, hf.rounds.error _ _ hz, ?_⟩
    show Fl.sub rnd (.fin a) (Fl.mul rnd (.fin p) (.fin q)) = .fin z
    rw [show Fl.mul rnd (.fin p) (.fin q) = .fin r from hr]
    show rnd (a + -r) = _
    rw [← sub_eq_add_neg, hz]
  below := by
    rintro _ _ p q rfl rfl
    rfl

/-! ### Factors -/

/-- What rounding changes in a row in a step of the elimination. -/
theorem row_change {ι : Type} (s : Finset ι) {m q w p : ι → ℚ} {a d l u η A N : ℚ} (hu : 0 ≤ u) (hu' : u ≤ 1 / 8) (hη : 0 ≤ η)
    (hd : d ≠ 0) (hl : |l - a / d| ≤ u * |a / d| + η) (hp : ∀ c ∈ s, |p c - l * w c| ≤ u * |l * w c| + η)
    (hq : ∀ c ∈ s, |q c - (m c - p c)| ≤ u * |m c - p c| + η) (hw : ∑ c ∈ s, |w c| ≤ |d|) (ha : |a| ≤ A) (hdA : |d| ≤ A)
    (hm : ∑ c ∈ s, |m c| ≤ 2 * A) (hN : (s.card : ℚ) ≤ N) :
    ∑ c ∈ s, |q c - (m c - a / d * w c)| ≤ 6 * u * A + 3 * η * (A + N) := by
  have hd0 : 0 < |d| := abs_pos.mpr hd
  have hA : 0 < A := hd0.trans_le hdA
  have hN0 : 0 ≤ N := le_trans (by positivity) hN
  set X := ∑ c ∈ s, |w c| with hX
  have hX0 : 0 ≤ X := Finset.sum_nonneg fun _ _ => abs_nonneg _
  have hρ : |a / d| * X ≤ A := by
    calc |a / d| * X ≤ |a / d| * |d| := mul_le_mul_of_nonneg_left hw (abs_nonneg _)
      _ = |a| := by rw [abs_div, div_mul_cancel₀ _ hd0.ne']
      _ ≤ A := ha
  have hlabs : |l| ≤ |a / d| + (u * |a / d| + η) := by
    have := abs_add_le (l - a / d) (a / d)
    rw [sub_add_cancel] at this
    linarith
  have hlX : |l| * X ≤ A + u * A + η * A := by
    have h1 := mul_le_mul_of_nonneg_right hlabs hX0
    have h2 := mul_le_mul_of_nonneg_left hρ hu
    have h3 := mul_le_mul_of_nonneg_left (hw.trans hdA) hη
    nlinarith
  have hpt : ∀ c ∈ s, |q c - (m c - a / d * w c)| ≤ (u * |a / d| + η) * |w c| + (1 + u) * (u * (|l| * |w c|) + η) +
      u * (|m c| + |l| * |w c|) + η := by
    intro c hc
    have h1 := hp c hc
    have h2 := hq c hc
    rw [abs_mul] at h1
    have h3 : |m c - p c| ≤ |m c| + (|l| * |w c| + (u * (|l| * |w c|) + η)) := by
      have h4 := abs_sub (m c) (p c)
      have h5 := abs_add_le (p c - l * w c) (l * w c)
      rw [sub_add_cancel, abs_mul] at h5
      linarith
    have h4 := mul_le_mul_of_nonneg_left h3 hu
    have h5 : |(l - a / d) * w c| ≤ (u * |a / d| + η) * |w c| := by
      rw [abs_mul]
      exact mul_le_mul_of_nonneg_right hl (abs_nonneg _)
    have e : q c - (m c - a / d * w c) = (q c - (m c - p c)) + -(p c - l * w c) + -((l - a / d) * w c) := by ring
    rw [e]
    have h6 := abs_add_three (q c - (m c - p c)) (-(p c - l * w c)) (-((l - a / d) * w c))
    rw [abs_neg, abs_neg] at h6
    nlinarith
  have hsum := Finset.sum_le_sum hpt
  simp only [Finset.sum_add_distrib, ← Finset.mul_sum, Finset.sum_const, nsmul_eq_mul, mul_add,
    add_mul, one_mul] at hsum
  rw [← hX] at hsum
  have k1 := mul_le_mul_of_nonneg_left hρ hu
  have k2 := mul_le_mul_of_nonneg_left hlX hu
  have k3 := mul_le_mul_of_nonneg_left hm hu
  have k4 := mul_le_mul_of_nonneg_left (hw.trans hdA) hη
  have k5 := mul_le_mul_of_nonneg_right hN hη
  have k6 := mul_le_mul_of_nonneg_left k2 hu
  have k7 := mul_le_mul_of_nonneg_left k5 hu
  have uA : 0 ≤ u * A := by positivity
  have uuA : u * (u * A) ≤ 1 / 8 * (u * A) := mul_le_mul_of_nonneg_right hu' uA
  have ηA : 0 ≤ η * A := by positivity
  have uηA : u * (η * A) ≤ 1 / 8 * (η * A) := mul_le_mul_of_nonneg_right hu' ηA
  have ηN : 0 ≤ N * η := by positivity
  have uηN : u * (N * η) ≤ 1 / 8 * (N * η) := mul_le_mul_of_nonneg_right hu' ηN
  have uuuA : u * (u * (u * A)) ≤ 1 / 8 * (1 / 8 * (u * A)) := by
    calc u * (u * (u * A)) ≤ u * (1 / 8 * (u * A)) := mul_le_mul_of_nonneg_left uuA hu
      _ ≤ 1 / 8 * (1 / 8 * (u * A)) := mul_le_mul_of_nonneg_right hu' (by positivity)
  have uuηA : u * (u * (η * A)) ≤ 1 / 8 * (1 / 8 * (η * A)) := by
    calc u * (u * (η * A)) ≤ u * (1 / 8 * (η * A)) := mul_le_mul_of_nonneg_left uηA hu
      _ ≤ 1 / 8 * (1 / 8 * (η * A)) := mul_le_mul_of_nonneg_right hu' (by positivity)
  nlinarith

/-- The columns from `i` on. -/
def columns (n i : Nat) : Finset (Fin n) := Finset.univ.filter fun c => i ≤ c.1

theorem mem_columns {n i : Nat} {c : Fin n} : c ∈ columns n i ↔ i ≤ c.1 := by simp [columns]

theorem columns_erase {n : Nat} (i : Fin n) : (columns n i.1).erase i = columns n (i.1 + 1) := above_erase i

theorem columns_split {n : Nat} (i : Fin n) (f : Fin n → ℚ) : ∑ c ∈ columns n i.1, f c = f i + ∑ c ∈ columns n (i.1 + 1), f c := by
  rw [← columns_erase, Finset.add_sum_erase]
  exact mem_columns.mpr le_rfl

/-- The columns before `i`. -/
def columnsLeft (n i : Nat) : Finset (Fin n) := Finset.univ.filter fun c => c.1 < i

theorem mem_columnsLeft {n i : Nat} {c : Fin n} : c ∈ columnsLeft n i ↔ c.1 < i := by simp [columnsLeft]

theorem columnsLeft_split {n : Nat} (i : Fin n) (f : Fin n → ℚ) :
    ∑ c ∈ columnsLeft n (i.1 + 1), f c = f i + ∑ c ∈ columnsLeft n i.1, f c := by
  have e : columnsLeft n (i.1 + 1) = insert i (columnsLeft n i.1) := by
    ext c
    rw [Finset.mem_insert, mem_columnsLeft, mem_columnsLeft, Fin.ext_iff]
    omega
  rw [e, Finset.sum_insert]
  rw [mem_columnsLeft]
  exact lt_irrefl _

/-- By how much the pivot of a row exceeds the elements after it. -/
def excess {n : Nat} (Q : Fin n → Fin n → ℚ) (k : Fin n) : ℚ := |Q k k| - ∑ c ∈ columns n (k.1 + 1), |Q k c|

/-- The matrix before step `i` of the elimination: finished rows, multipliers, and what is left. -/
structure HeavyRows {n : Nat} (t A S W : ℚ) (Q : Fin n → Fin n → ℚ) (i : Nat) : Prop where
  done : ∀ r : Fin n, r.1 < i → |Q r r| ≤ A ∧ 0 ≤ excess Q r ∧ S + ∑ k ∈ columnsLeft n r.1, |Q r k| * excess Q k ≤ excess Q r
  mult : ∀ r k : Fin n, k.1 < i → k < r → |Q r k| * |Q k k| ≤ 5 / 4 * A
  rest : ∀ r : Fin n, i ≤ r.1 →
    S + ∑ k ∈ columnsLeft n i, |Q r k| * excess Q k + ∑ c ∈ (columns n i).erase r, |Q r c| ≤ |Q r r|
  top : ∀ r : Fin n, i ≤ r.1 → ∑ c ∈ columns n i, |Q r c| ≤ W

theorem HeavyRows.left_nonneg {n : Nat} {t A S W : ℚ} {Q : Fin n → Fin n → ℚ} {i : Nat} (h : HeavyRows t A S W Q i) (r : Fin n) :
    0 ≤ ∑ k ∈ columnsLeft n i, |Q r k| * excess Q k :=
  Finset.sum_nonneg fun k hk => mul_nonneg (abs_nonneg _) (h.done k (mem_columnsLeft.mp hk)).2.1

theorem heavy_row {V : Type} [Sub V] [Mul V] [Div V] {F : Arith V} {val : V → ℚ → Prop} {n : Nat} {u η R : ℚ} (hf : Works F val u η R) {t A S W : ℚ} (ht : 0 < t) (hS : t ≤ S) (hA : A ≤ t * R)
    (hR : 8 * A + 1 ≤ R) (hW : W ≤ A) {Q : Fin n → Fin n → ℚ} {i : Fin n} (h : HeavyRows t A S W Q i.1)
    {N : Fin n → Fin n → V} (hN : ∀ r c, val (N r c) (Q r c)) {r : Fin n} (hr : i < r) :
    ∃ (l : ℚ) (q : Fin n → ℚ), val (N r i / N i i) l ∧ (∀ c, i < c → val (N r c - N r i / N i i * N i c) (q c)) ∧ |l| * |Q i i| ≤ 5 / 4 * A ∧
      (|Q r r| - ∑ c ∈ (columns n i.1).erase r, |Q r c| - (7 * u * A + 4 * η * (A + n)) + |l| * excess Q i +
        ∑ c ∈ (columns n (i.1 + 1)).erase r, |q c| ≤ |q r|) ∧
      ∑ c ∈ columns n (i.1 + 1), |q c| ≤ W + (7 * u * A + 4 * η * (A + n)) := by
  have hu := hf.u_nonneg
  have hη := hf.η_nonneg
  have hus : u ≤ 1 / 8 := hf.u_small.trans (by norm_num)
  have hηs : η ≤ 1 / 8 := hf.η_small.trans (by norm_num)
  have hri : i.1 ≤ r.1 := le_of_lt hr
  have hri' : i.1 + 1 ≤ r.1 := hr
  set T := columns n (i.1 + 1) with hT
  have hrT : r ∈ T := mem_columns.mpr hri'
  have hsi : S + ∑ c ∈ (columns n i.1).erase i, |Q i c| ≤ |Q i i| := by linarith [h.rest i le_rfl, h.left_nonneg i]
  have hsr : S + ∑ c ∈ (columns n i.1).erase r, |Q r c| ≤ |Q r r| := by linarith [h.rest r hri, h.left_nonneg r]
  have hti := h.top i le_rfl
  have htr := h.top r hri
  rw [columns_erase, ← hT] at hsi
  rw [columns_split, ← hT] at hti htr
  have hner : i ∈ (columns n i.1).erase r := Finset.mem_erase.mpr ⟨ne_of_lt hr, mem_columns.mpr le_rfl⟩
  have hsr2 := Finset.add_sum_erase _ (fun c => |Q r c|) hner
  rw [Finset.erase_right_comm, columns_erase, ← hT] at hsr2
  have hTr := Finset.add_sum_erase T (fun c => |Q r c|) hrT
  have hTi := Finset.add_sum_erase T (fun c => |Q i c|) hrT
  have posT : ∀ (s : Finset (Fin n)) (f : Fin n → ℚ), 0 ≤ ∑ c ∈ s, |f c| := fun s f => Finset.sum_nonneg fun _ _ => abs_nonneg _
  have p1 := posT T (Q i)
  have p2 := posT T (Q r)
  have p3 := posT (T.erase r) (Q r)
  have p4 := abs_nonneg (Q r i)
  have p5 := abs_nonneg (Q i i)
  have hd : t ≤ |Q i i| := by linarith
  have hd0 : 0 < |Q i i| := ht.trans_le hd
  have hdne : Q i i ≠ 0 := abs_pos.mp hd0
  have hdA : |Q i i| ≤ A := by linarith
  have hari : |Q r i| ≤ A := by linarith
  have hA0 : 0 < A := hd0.trans_le hdA
  have hX : ∑ c ∈ T, |Q i c| ≤ |Q i i| := by linarith
  have hm : ∑ c ∈ T, |Q r c| ≤ 2 * A := by linarith
  have hrow : ∀ c, i < c → |Q r c| ≤ A := fun c hc => by
    have := Finset.single_le_sum (f := fun c => |Q r c|) (fun _ _ => abs_nonneg _) (show c ∈ T from mem_columns.mpr hc)
    linarith
  -- the multiplier
  have hquot : |Q r i / Q i i| ≤ R := by
    rw [abs_div, div_le_iff₀ hd0]
    have hR0 : 0 ≤ R := by linarith
    have := mul_le_mul_of_nonneg_right hd hR0
    linarith
  obtain ⟨l, hl, hle⟩ := hf.quot (hN r i) (hN i i) hdne hquot
  have hmult : |Q r i / Q i i| * |Q i i| = |Q r i| := by rw [abs_div, div_mul_cancel₀ _ hd0.ne']
  have hlabs : |l| * |Q i i| ≤ 5 / 4 * A := by
    have h1 : |l| ≤ |Q r i / Q i i| + (u * |Q r i / Q i i| + η) := by
      have := abs_add_le (l - Q r i / Q i i) (Q r i / Q i i)
      rw [sub_add_cancel] at this
      linarith
    have h2 := mul_le_mul_of_nonneg_right h1 hd0.le
    have h4 : u * |Q r i| ≤ 1 / 8 * A := mul_le_mul hus hari (abs_nonneg _) (by norm_num)
    have h5 : η * |Q i i| ≤ 1 / 8 * A := mul_le_mul hηs hdA hd0.le (by norm_num)
    have e : (|Q r i / Q i i| + (u * |Q r i / Q i i| + η)) * |Q i i| =
        |Q r i / Q i i| * |Q i i| + u * (|Q r i / Q i i| * |Q i i|) + η * |Q i i| := by ring
    rw [e, hmult] at h2
    linarith
  have hw : ∀ c, i < c → |l * Q i c| ≤ 2 * A := by
    intro c hc
    have h1 : |Q i c| ≤ |Q i i| := by
      have := Finset.single_le_sum (f := fun c => |Q i c|) (fun _ _ => abs_nonneg _) (show c ∈ T from mem_columns.mpr hc)
      linarith
    rw [abs_mul]
    have := (mul_le_mul_of_nonneg_left h1 (abs_nonneg l)).trans hlabs
    linarith
  have hpq : ∀ c, ∃ p q, i < c → |p - l * Q i c| ≤ u * |l * Q i c| + η ∧ |q - (Q r c - p)| ≤ u * |Q r c - p| + η ∧
      val (N r c - N r i / N i i * N i c) q := by
    intro c
    by_cases hc : i < c
    · obtain ⟨p, q, h1⟩ := hf.diff (hN r c) hl (hN i c) (by
        have h3 := hw c hc
        have h4 : u * |l * Q i c| ≤ 1 / 8 * (2 * A) := mul_le_mul hus h3 (abs_nonneg _) (by norm_num)
        linarith [hrow c hc])
      exact ⟨p, q, fun _ => h1⟩
    · exact ⟨0, 0, fun h => absurd h hc⟩
  choose p q hpq using hpq
  have hT' : ∀ c ∈ T, i < c := fun c hc => mem_columns.mp hc
  have hcard : (T.card : ℚ) ≤ n := by
    have := Finset.card_le_univ T
    rw [Fintype.card_fin] at this
    exact_mod_cast this
  have key := row_change T (m := Q r) (q := q) (w := Q i) (p := p) hu hus hη hdne hle
    (fun c hc => (hpq c (hT' c hc)).1) (fun c hc => (hpq c (hT' c hc)).2.1) hX hari hdA hm hcard
  set E := 6 * u * A + 3 * η * (A + n) with hE
  have hE' : E + u * A + η * A ≤ 7 * u * A + 4 * η * (A + n) := by
    have : 0 ≤ η * n := by positivity
    rw [hE]
    linarith
  have huA : 0 ≤ u * A := by positivity
  have hηA : 0 ≤ η * A := by positivity
  set ε : Fin n → ℚ := fun c => |q c - (Q r c - Q r i / Q i i * Q i c)| with hε
  have keyr := Finset.add_sum_erase T ε hrT
  have hup : ∀ c, |q c| ≤ ε c + |Q r c| + |Q r i / Q i i| * |Q i c| := fun c => by
    have h1 := abs_add_le (q c - (Q r c - Q r i / Q i i * Q i c)) (Q r c - Q r i / Q i i * Q i c)
    have h2 := abs_sub (Q r c) (Q r i / Q i i * Q i c)
    rw [sub_add_cancel] at h1
    rw [abs_mul] at h2
    linarith
  have hlow : |Q r r| - |Q r i / Q i i| * |Q i r| - ε r ≤ |q r| := by
    have h1 := abs_sub_abs_le_abs_sub (Q r r) (Q r i / Q i i * Q i r)
    have h2 := abs_sub_abs_le_abs_sub (Q r r - Q r i / Q i i * Q i r) (q r)
    rw [abs_sub_comm (Q r r - Q r i / Q i i * Q i r) (q r)] at h2
    rw [abs_mul] at h1
    show _ - |q r - (Q r r - Q r i / Q i i * Q i r)| ≤ _
    linarith
  have hgap : |l| * excess Q i ≤ |Q r i / Q i i| * excess Q i + (u * A + η * A) := by
    have g0 : 0 ≤ excess Q i := by
      unfold excess
      linarith
    have g1 : excess Q i ≤ |Q i i| := by
      unfold excess
      linarith
    have h1 : |l| ≤ |Q r i / Q i i| + (u * |Q r i / Q i i| + η) := by
      have := abs_add_le (l - Q r i / Q i i) (Q r i / Q i i)
      rw [sub_add_cancel] at this
      linarith
    have h2 := mul_le_mul_of_nonneg_right h1 g0
    have h3 : (u * |Q r i / Q i i| + η) * excess Q i ≤ (u * |Q r i / Q i i| + η) * |Q i i| := mul_le_mul_of_nonneg_left g1 (by positivity)
    have h4 : (u * |Q r i / Q i i| + η) * |Q i i| = u * (|Q r i / Q i i| * |Q i i|) + η * |Q i i| := by ring
    rw [hmult] at h4
    have h5 := mul_le_mul_of_nonneg_left hari hu
    have h6 := mul_le_mul_of_nonneg_left hdA hη
    rw [add_mul] at h2
    linarith
  have hexact : |Q r i / Q i i| * excess Q i = |Q r i| - |Q r i / Q i i| * ∑ c ∈ T, |Q i c| := by
    unfold excess
    rw [mul_sub, hmult]
  have hsumT : |Q r i / Q i i| * ∑ c ∈ T, |Q i c| ≤ |Q r i| :=
    (mul_le_mul_of_nonneg_left hX (abs_nonneg _)).trans (le_of_eq hmult)
  refine ⟨l, q, hl, fun c hc => (hpq c hc).2.2, hlabs, ?_, ?_⟩
  · have h1 := Finset.sum_le_sum fun c (_ : c ∈ T.erase r) => hup c
    rw [Finset.sum_add_distrib, Finset.sum_add_distrib, ← Finset.mul_sum] at h1
    rw [← hTi, mul_add] at hsumT hexact
    change ∑ c ∈ T, ε c ≤ E at key
    linarith
  · have h1 := Finset.sum_le_sum fun c (_ : c ∈ T) => hup c
    rw [Finset.sum_add_distrib, Finset.sum_add_distrib, ← Finset.mul_sum] at h1
    change ∑ c ∈ T, ε c ≤ E at key
    linarith

theorem heavy_step {V : Type} [Sub V] [Mul V] [Div V] {F : Arith V} {val : V → ℚ → Prop} {n : Nat} {u η R : ℚ} (hf : Works F val u η R) {t A S W : ℚ} (ht : 0 < t) (hS : t ≤ S) (hA : A ≤ t * R)
    (hR : 8 * A + 1 ≤ R) (hW : W ≤ A) {Q : Fin n → Fin n → ℚ} {i : Fin n} (h : HeavyRows t A S W Q i.1)
    {N : Fin n → Fin n → V} (hN : ∀ r c, val (N r c) (Q r c)) :
    ∃ Q' : Fin n → Fin n → ℚ, (∀ r c, val (elim N i r c) (Q' r c)) ∧
      HeavyRows t A (S - (7 * u * A + 4 * η * (A + n))) (W + (7 * u * A + 4 * η * (A + n))) Q' (i.1 + 1) := by
  have hrow : ∀ r, ∃ (l : ℚ) (q : Fin n → ℚ), i < r → val (N r i / N i i) l ∧
      (∀ c, i < c → val (N r c - N r i / N i i * N i c) (q c)) ∧ |l| * |Q i i| ≤ 5 / 4 * A ∧
      (|Q r r| - ∑ c ∈ (columns n i.1).erase r, |Q r c| - (7 * u * A + 4 * η * (A + n)) + |l| * excess Q i +
        ∑ c ∈ (columns n (i.1 + 1)).erase r, |q c| ≤ |q r|) ∧
      ∑ c ∈ columns n (i.1 + 1), |q c| ≤ W + (7 * u * A + 4 * η * (A + n)) := by
    intro r
    by_cases hr : i < r
    · obtain ⟨l, q, h1⟩ := heavy_row hf ht hS hA hR hW h hN hr
      exact ⟨l, q, fun _ => h1⟩
    · exact ⟨0, fun _ => 0, fun h => absurd h hr⟩
  choose l q hlq using hrow
  set Q' : Fin n → Fin n → ℚ := fun r c => if i < r then (if c = i then l r else if i < c then q r c else Q r c) else Q r c with hQ'
  have qOld : ∀ r c, ¬ i < r → Q' r c = Q r c := fun r c hr => by simp only [hQ', hr, if_false]
  have qLeft : ∀ r c, c < i → Q' r c = Q r c := fun r c hc => by
    simp only [hQ', ne_of_lt hc, lt_asymm hc, if_false]
    split <;> rfl
  have qNew : ∀ r c, i < r → i < c → Q' r c = q r c := fun r c hr hc => by
    simp only [hQ', hr, hc, ne_of_gt hc, if_true, if_false]
  have qMult : ∀ r, i < r → Q' r i = l r := fun r hr => by simp only [hQ', hr, if_true]
  have gOld : ∀ k, k ≤ i → excess Q' k = excess Q k := fun k hk => by
    unfold excess
    simp only [qOld k _ (not_lt.mpr hk)]
  have hE0 : 0 ≤ 7 * u * A + 4 * η * (A + n) := by
    have h1 := h.top i le_rfl
    have h2 : 0 ≤ ∑ c ∈ columns n i.1, |Q i c| := Finset.sum_nonneg fun _ _ => abs_nonneg _
    have hA0 : 0 ≤ A := by linarith
    have := hf.u_nonneg
    have := hf.η_nonneg
    positivity
  refine ⟨Q', ?_, ?_, ?_, ?_, ?_⟩
  · intro r c
    unfold elim
    by_cases hr : i < r
    · obtain ⟨h1, h2, -⟩ := hlq r hr
      simp only [hr, if_true]
      by_cases hc : c = i
      · subst hc
        rw [if_pos rfl, qMult r hr]
        exact h1
      · rw [if_neg hc]
        by_cases hc' : i < c
        · rw [if_pos hc', qNew r c hr hc']
          exact h2 c hc'
        · rw [if_neg hc', qLeft r c (lt_of_le_of_ne (not_lt.mp hc') hc)]
          exact hN r c
    · simp only [hr, if_false]
      rw [qOld r c hr]
      exact hN r c
  · intro r hr
    have hni : ¬ i < r := fun h => by have : i.1 < r.1 := h; omega
    have hsum : ∑ k ∈ columnsLeft n r.1, |Q' r k| * excess Q' k = ∑ k ∈ columnsLeft n r.1, |Q r k| * excess Q k :=
      Finset.sum_congr rfl fun k hk => by
        rw [qOld r _ hni, gOld k (le_trans (le_of_lt (mem_columnsLeft.mp hk)) (not_lt.mp hni))]
    rw [hsum, gOld r (not_lt.mp hni), qOld r _ hni]
    by_cases hri : r.1 < i.1
    · obtain ⟨h1, h2, h3⟩ := h.done r hri
      exact ⟨h1, h2, by linarith⟩
    · obtain rfl : r = i := Fin.ext (by omega)
      have h1 := h.rest r le_rfl
      have h2 := h.top r le_rfl
      have h4 := h.left_nonneg r
      rw [columns_erase] at h1
      rw [columns_split] at h2
      have h3 : 0 ≤ ∑ c ∈ columns n (r.1 + 1), |Q r c| := Finset.sum_nonneg fun _ _ => abs_nonneg _
      unfold excess at h4 h1 ⊢
      exact ⟨by linarith, by linarith, by linarith⟩
  · intro r k hk hkr
    have hkk : Q' k k = Q k k := qOld k k fun h => by have : i.1 < k.1 := h; omega
    rw [hkk]
    by_cases hki : k.1 < i.1
    · rw [qLeft r k hki]
      exact h.mult r k hki hkr
    · obtain rfl : k = i := Fin.ext (by omega)
      rw [qMult r hkr]
      exact (hlq r hkr).2.2.1
  · intro r hr
    have hir : i < r := hr
    have h1 := (hlq r hir).2.2.2.1
    have h2 := h.rest r (le_of_lt hir)
    rw [columnsLeft_split, qNew r r hir hir, qMult r hir, gOld i le_rfl]
    have e1 : ∑ k ∈ columnsLeft n i.1, |Q' r k| * excess Q' k = ∑ k ∈ columnsLeft n i.1, |Q r k| * excess Q k :=
      Finset.sum_congr rfl fun k hk => by
        have hk : k < i := mem_columnsLeft.mp hk
        rw [qLeft r k hk, gOld k hk.le]
    have e2 : ∑ c ∈ (columns n (i.1 + 1)).erase r, |Q' r c| = ∑ c ∈ (columns n (i.1 + 1)).erase r, |q r c| :=
      Finset.sum_congr rfl fun c hc => by
        rw [qNew r c hir (mem_columns.mp (Finset.mem_of_mem_erase hc))]
    rw [e1, e2]
    linarith
  · intro r hr
    have hir : i < r := hr
    refine le_trans (le_of_eq ?_) (hlq r hir).2.2.2.2
    refine Finset.sum_congr rfl fun c hc => ?_
    rw [qNew r c hir (mem_columns.mp hc)]

/-- The factorisation of a dominant matrix. -/
theorem factorise_heavy {V : Type} [Zero V] [Sub V] [Mul V] [Div V] {F : Arith V} {val : V → ℚ → Prop} {n : Nat} {u η R : ℚ}
    (hf : Works F val u η R) {t A S W : ℚ} (ht : 0 < t)
    (hS : t + n * (7 * u * A + 4 * η * (A + n)) ≤ S) (hA : A ≤ t * R) (hA0 : 0 ≤ A) (hR : 8 * A + 1 ≤ R)
    (hW : W + n * (7 * u * A + 4 * η * (A + n)) ≤ A) {B : Fin n → Fin n → ℚ} (h : HeavyRows t A S W B 0)
    {N : Fin n → Fin n → V} (hN : ∀ r c, val (N r c) (B r c)) (s : Lu V) (hs : val s.tol t) :
    ∃ (N' : Fin n → Fin n → V) (M : Fin n → Fin n → ℚ),
      factorise F false s (mat N) = .ok ({ s with factorised := true, lu := mat N' }, true) ∧ (∀ r c, val (N' r c) (M r c)) ∧
      (∀ r, |M r r| ≤ A ∧ S - n * (7 * u * A + 4 * η * (A + n)) + ∑ k ∈ columnsLeft n r.1, |M r k| * excess M k ≤ excess M r) ∧
      (∀ r, t ≤ excess M r) ∧ ∀ r k, k < r → |M r k| * |M k k| ≤ 5 / 4 * A := by
  set E := 7 * u * A + 4 * η * (A + n) with hE
  have hu := hf.u_nonneg
  have hη := hf.η_nonneg
  have hE0 : 0 ≤ E := by positivity
  obtain ⟨_, h2, N', M, rfl, hN', h3⟩ := loop_inv (n := n) (body := factoriseBody F false s.tol) (s := (mat N, s.piv, true))
    (fun i t' => ∃ (N' : Fin n → Fin n → V) (M : Fin n → Fin n → ℚ), t' = (mat N', s.piv, true) ∧ (∀ r c, val (N' r c) (M r c)) ∧
      HeavyRows t A (S - i * E) (W + i * E) M i)
    ⟨N, B, rfl, hN, by simpa using h⟩ (by
      rintro i t' hi ⟨N', M, rfl, hN', h3⟩
      have hin : (i : ℚ) * E ≤ n * E := mul_le_mul_of_nonneg_right (by exact_mod_cast hi.le) hE0
      obtain ⟨M', e1, h4⟩ := heavy_step hf (i := ⟨i, hi⟩) ht (S := S - i * E) (W := W + i * E) (by linarith) hA hR (by linarith) h3 hN'
      refine ⟨_, ?_, elim N' ⟨i, hi⟩, M', rfl, e1, ?_⟩
      · have hd : t ≤ |M ⟨i, hi⟩ ⟨i, hi⟩| := by
          have h5 := h3.rest ⟨i, hi⟩ le_rfl
          have h6 := h3.left_nonneg ⟨i, hi⟩
          have h7 : 0 ≤ ∑ c ∈ (columns n i).erase ⟨i, hi⟩, |M ⟨i, hi⟩ c| := Finset.sum_nonneg fun _ _ => abs_nonneg _
          linarith
        have hlt : F.lt (F.abs (N' ⟨i, hi⟩ ⟨i, hi⟩)) s.tol = false := by
          rw [hf.below (hN' _ _) hs]
          simpa using hd
        unfold factoriseBody
        simp only [if_true, Bool.false_eq_true, if_false, Out.pure_eq, Out.ok_bind, rd2_mat _ hi hi, hlt, mat_length]
        have := eliminate_ok N' ⟨i, hi⟩
        simp only at this
        rw [this]
        rfl
      · have e : S - ((i + 1 : ℕ) : ℚ) * E = S - i * E - E := by push_cast; ring
        have e' : W + ((i + 1 : ℕ) : ℚ) * E = W + i * E + E := by push_cast; ring
        rw [e, e']
        exact h4)
  refine ⟨N', M, ?_, hN', fun r => ⟨(h3.done r r.2).1, (h3.done r r.2).2.2⟩, fun r => ?_, fun r k hk => h3.mult r k k.2 hk⟩
  swap
  · have h4 := (h3.done r r.2).2.2
    have h5 : 0 ≤ ∑ k ∈ columnsLeft n r.1, |M r k| * excess M k :=
      Finset.sum_nonneg fun k _ => mul_nonneg (abs_nonneg _) (h3.done k k.2).2.1
    linarith
  unfold factorise
  rw [mat_length]
  simp only [Bool.false_eq_true, if_false]
  rw [h2]
  rfl

theorem heavy_start {n : Nat} {t A S W : ℚ} {B : Fin n → Fin n → ℚ} (hrow : ∀ r, ∑ c, |B r c| ≤ W)
    (hdom : ∀ r, S + ∑ c ∈ Finset.univ.erase r, |B r c| ≤ |B r r|) : HeavyRows t A S W B 0 := by
  have e : columns n 0 = Finset.univ := by simp [columns]
  exact ⟨fun r hr => absurd hr (Nat.not_lt_zero _), fun r k hk => absurd hk (Nat.not_lt_zero _),
    fun r _ => by rw [e, columnsLeft, Finset.filter_false_of_mem fun c _ => Nat.not_lt_zero _, Finset.sum_empty, add_zero]; exact hdom r, fun r _ => by rw [e]; exact hrow r⟩

/-- The numbers of unknowns for which rows can be dominant. -/
theorem heavy_size {n : Nat} (hn0 : 0 < n) {t A S : ℚ} (ht : 0 < t) {B : Fin n → Fin n → ℚ} (hrow : ∀ r, ∑ c, |B r c| ≤ A)
    (hdom : ∀ r, S + ∑ c ∈ Finset.univ.erase r, |B r c| ≤ |B r r|) (hS : t + n * A / 2 ^ 49 ≤ S) :
    t ≤ S ∧ S ≤ A ∧ (n : ℚ) ≤ 2 ^ 49 := by
  have h1 := hrow ⟨0, hn0⟩
  have h2 := hdom ⟨0, hn0⟩
  rw [← Finset.add_sum_erase _ _ (Finset.mem_univ (⟨0, hn0⟩ : Fin n))] at h1
  have h3 : 0 ≤ ∑ c ∈ Finset.univ.erase (⟨0, hn0⟩ : Fin n), |B ⟨0, hn0⟩ c| := Finset.sum_nonneg fun _ _ => abs_nonneg _
  have h4 := abs_nonneg (B ⟨0, hn0⟩ ⟨0, hn0⟩)
  have hA0 : 0 ≤ A := by linarith
  have h5 : 0 ≤ n * A / 2 ^ 49 := by positivity
  have hA1 : 0 < A := by linarith
  refine ⟨by linarith, by linarith, ?_⟩
  have h6 : n * A / 2 ^ 49 ≤ A := by linarith
  rw [div_le_iff₀ (by positivity), mul_comm A] at h6
  exact le_of_mul_le_mul_right h6 hA1

theorem factorise_works64 {V : Type} [Zero V] [Sub V] [Mul V] [Div V] {F : Arith V} {val : V → ℚ → Prop} {n : Nat}
    (hf : Works F val (1 / 2 ^ 53) (1 / 2 ^ 1075) (2 ^ 1023)) {t A S : ℚ} (ht : 1 / 2 ^ 100 ≤ t) (hA : A ≤ 2 ^ 900) {B : Fin n → Fin n → ℚ}
    (hrow : ∀ r, ∑ c, |B r c| ≤ A) (hdom : ∀ r, S + ∑ c ∈ Finset.univ.erase r, |B r c| ≤ |B r r|)
    (hS : t + n * A / 2 ^ 49 ≤ S) {N : Fin n → Fin n → V} (hN : ∀ r c, val (N r c) (B r c)) (s : Lu V) (htol : val s.tol t) :
    ∃ (N' : Fin n → Fin n → V) (M : Fin n → Fin n → ℚ),
      factorise F false s (mat N) = .ok ({ s with factorised := true, lu := mat N' }, true) ∧ (∀ r c, val (N' r c) (M r c)) ∧
      (∀ r, |M r r| ≤ 2 * A ∧ S - n * A / 2 ^ 49 + ∑ k ∈ columnsLeft n r.1, |M r k| * excess M k ≤ excess M r) ∧
      (∀ r, t ≤ excess M r) ∧ ∀ r k, k < r → |M r k| * |M k k| ≤ 5 / 4 * (2 * A) := by
  have ht0 : 0 < t := lt_of_lt_of_le (by positivity) ht
  rcases Nat.eq_zero_or_pos n with rfl | hn0
  · obtain ⟨N', M, h1, h1', -⟩ := factorise_heavy hf (t := t) (A := 0) (S := t) (W := 0) ht0 (by simp) (by positivity) le_rfl
      (by rw [mul_zero, zero_add]; exact one_le_pow₀ (by norm_num)) (by simp) (heavy_start (fun r => r.elim0) fun r => r.elim0) hN s htol
    exact ⟨N', M, h1, h1', fun r => r.elim0, fun r => r.elim0, fun r => r.elim0⟩
  obtain ⟨htS, hSA, hn⟩ := heavy_size hn0 ht0 hrow hdom hS
  have htA : t ≤ A := htS.trans hSA
  have hA0 : 0 ≤ A := ht0.le.trans htA
  have hpow : (2 : ℚ) ^ 1075 = 2 ^ 150 * 2 ^ 925 := by rw [← pow_add]
  have hE : 7 * (1 / 2 ^ 53) * (2 * A) + 4 * (1 / 2 ^ 1075) * (2 * A + n) ≤ A / 2 ^ 49 := by
    have h3 : (n : ℚ) ≤ 2 ^ 150 * A := by
      have : (2 : ℚ) ^ 150 * (1 / 2 ^ 100) ≤ 2 ^ 150 * A := mul_le_mul_of_nonneg_left (ht.trans htA) (by positivity)
      calc (n : ℚ) ≤ 2 ^ 49 := hn
        _ ≤ 2 ^ 150 * (1 / 2 ^ 100) := by norm_num
        _ ≤ _ := this
    have h4 : 2 * A + n ≤ 2 ^ 151 * A := by
      have : 2 * A ≤ 2 ^ 150 * A := mul_le_mul_of_nonneg_right (by norm_num) hA0
      calc 2 * A + n ≤ 2 ^ 150 * A + 2 ^ 150 * A := add_le_add this h3
        _ = _ := by ring
    have h5 : 4 * (1 / 2 ^ 1075) * (2 * A + n) ≤ 4 * (1 / 2 ^ 1075) * (2 ^ 151 * A) := mul_le_mul_of_nonneg_left h4 (by positivity)
    have h6 : (4 : ℚ) * (1 / 2 ^ 1075) * (2 ^ 151 * A) = 8 * (1 / 2 ^ 925) * A := by
      rw [hpow, pow_succ 2 150]
      field_simp
      ring
    have h7 : (1 / 2 ^ 925 : ℚ) ≤ 1 / 2 ^ 60 :=
      one_div_le_one_div_of_le (by positivity) (pow_le_pow_right₀ (by norm_num) (by norm_num))
    have h8 : 8 * (1 / 2 ^ 925) * A ≤ 8 * (1 / 2 ^ 60) * A := by gcongr
    generalize (1 / 2 ^ 1075 : ℚ) = e at *
    generalize (1 / 2 ^ 925 : ℚ) = e' at *
    have h9 : A / 2 ^ 49 = 16 * (1 / 2 ^ 53) * A := by ring
    have h10 : 8 * (1 / 2 ^ 60) * A ≤ 2 * (1 / 2 ^ 53) * A := mul_le_mul_of_nonneg_right (by norm_num) hA0
    linarith
  have hnE := mul_le_mul_of_nonneg_left hE (show (0 : ℚ) ≤ n by positivity)
  rw [← mul_div_assoc] at hnE
  have main := factorise_heavy hf (t := t) (A := 2 * A) (S := S) (W := A) (n := n) (B := B) ht0 (by linarith) ?_
    (by linarith) ?_ (by linarith) (heavy_start hrow hdom) hN s htol
  · obtain ⟨N', M, m1, m1', m2, m3⟩ := main
    exact ⟨N', M, m1, m1', fun r => ⟨(m2 r).1, by linarith [(m2 r).2]⟩, m3⟩
  · calc 2 * A ≤ 2 * 2 ^ 900 := by gcongr
      _ = 2 ^ 901 := by rw [pow_succ 2 900]; ring
      _ ≤ 1 / 2 ^ 100 * 2 ^ 1023 := by
        rw [show (1023 : ℕ) = 100 + 923 from rfl, pow_add, ← mul_assoc, one_div_mul_cancel (by positivity), one_mul]
        exact pow_le_pow_right₀ (by norm_num) (by norm_num)
      _ ≤ t * 2 ^ 1023 := mul_le_mul_of_nonneg_right ht (by positivity)
  · have h1 : (8 : ℚ) * (2 * 2 ^ 900) + 1 ≤ 2 ^ 905 := by
      rw [show (905 : ℕ) = 900 + 5 from rfl, pow_add]
      have : (1 : ℚ) ≤ 2 ^ 900 := one_le_pow₀ (by norm_num)
      generalize (2 : ℚ) ^ 900 = p at *
      norm_num
      linarith
    have h2 : (2 : ℚ) ^ 905 ≤ 2 ^ 1023 := pow_le_pow_right₀ (by norm_num) (by norm_num)
    generalize (2 : ℚ) ^ 905 = p at *
    generalize (2 : ℚ) ^ 1023 = p' at *
    generalize (2 : ℚ) ^ 900 = p'' at *
    linarith

theorem factorise_heavy64 {n : Nat} {t A S : ℚ} (ht : 1 / 2 ^ 100 ≤ t) (hA : A ≤ 2 ^ 900) {B : Fin n → Fin n → ℚ}
    (hrow : ∀ r, ∑ c, |B r c| ≤ A) (hdom : ∀ r, S + ∑ c ∈ Finset.univ.erase r, |B r c| ≤ |B r r|)
    (hS : t + n * A / 2 ^ 49 ≤ S) (s : Lu (Num binary64)) (htol : s.tol = fin t) :
    ∃ (M : Fin n → Fin n → ℚ),
      factorise (Num.arith binary64) false s (mat fun r c => (fin (B r c) : Num binary64)) =
        .ok ({ s with factorised := true, lu := mat (fun r c => (fin (M r c) : Num binary64)) }, true) ∧
      (∀ r, |M r r| ≤ 2 * A ∧ S - n * A / 2 ^ 49 + ∑ k ∈ columnsLeft n r.1, |M r k| * excess M k ≤ excess M r) ∧
      (∀ r, t ≤ excess M r) ∧ ∀ r k, k < r → |M r k| * |M k k| ≤ 5 / 4 * (2 * A) := by
  obtain ⟨N, M, h1, h2, h3⟩ := factorise_works64 (works_num fine_binary64) ht hA hrow hdom hS (fun _ _ => rfl) s htol
  obtain rfl : N = fun r c => fin (M r c) := funext fun r => funext fun c => h2 r c
  exact ⟨M, h1, h3⟩

/-! ### The sums in the residual -/

theorem heavy_pivots {n : Nat} {t A : ℚ} (ht : 0 < t) {M : Fin n → Fin n → ℚ} (h1 : ∀ r, |M r r| ≤ A) (h2 : ∀ r, t ≤ excess M r) (r : Fin n) :
    t ≤ |M r r| ∧ |M r r| ≤ A ∧ ∑ c ∈ columns n (r.1 + 1), |M r c| ≤ |M r r| := by
  have h3 := h2 r
  have h4 : 0 ≤ ∑ c ∈ columns n (r.1 + 1), |M r c| := Finset.sum_nonneg fun _ _ => abs_nonneg _
  unfold excess at h3
  exact ⟨by linarith, h1 r, by linarith⟩

theorem band_sum {n β : Nat} (r : Fin n) {f : Fin n → ℚ} {C : ℚ} (h0 : ∀ k : Fin n, r < k ∨ k.1 + β < r.1 → f k = 0)
    (hC : 0 ≤ C) (h1 : ∀ k, k ≤ r → f k ≤ C) : ∑ k, f k ≤ ((β + 1 : Nat) : ℚ) * C := by
  classical
  set s := Finset.univ.filter fun k : Fin n => k ≤ r ∧ r.1 ≤ k.1 + β with hs
  have e : ∑ k, f k = ∑ k ∈ s, f k := by
    symm
    refine Finset.sum_subset (Finset.subset_univ _) fun k _ hk => h0 k ?_
    have hk : ¬ (k ≤ r ∧ r.1 ≤ k.1 + β) := fun h => hk (Finset.mem_filter.mpr ⟨Finset.mem_univ _, h⟩)
    by_cases h : k ≤ r
    · exact .inr (not_le.mp fun h' => hk ⟨h, h'⟩)
    · exact .inl (not_le.mp h)
  have hcard : s.card ≤ β + 1 := by
    have h2 : s.card ≤ (Finset.Icc (r.1 - β) r.1).card := by
      refine Finset.card_le_card_of_injOn (fun k => k.1) (fun k hk => ?_) fun a _ b _ h => Fin.ext h
      obtain ⟨h3, h4⟩ := (Finset.mem_filter.mp hk).2
      have h3 : k.1 ≤ r.1 := h3
      simp only [Finset.coe_Icc, Set.mem_Icc]
      omega
    rw [Nat.card_Icc] at h2
    omega
  rw [e]
  calc ∑ k ∈ s, f k ≤ ∑ _k ∈ s, C := Finset.sum_le_sum fun k hk => h1 k (Finset.mem_filter.mp hk).2.1
    _ = (s.card : ℚ) * C := by rw [Finset.sum_const, nsmul_eq_mul]
    _ ≤ _ := mul_le_mul_of_nonneg_right (by exact_mod_cast hcard) hC

theorem upper_sum {n : Nat} (M : Fin n → Fin n → ℚ) (hU : ∀ r, ∑ c ∈ columns n (r.1 + 1), |M r c| ≤ |M r r|) (k : Fin n) :
    ∑ c, |upperPart M k c| ≤ 2 * |M k k| := by
  have e : ∑ c, |upperPart M k c| = ∑ c ∈ columns n k.1, |M k c| := by
    rw [columns, Finset.sum_filter]
    refine Finset.sum_congr rfl fun c _ => ?_
    unfold upperPart
    by_cases h : k ≤ c
    · rw [if_pos h, if_pos (show k.1 ≤ c.1 from h)]
    · rw [if_neg h, if_neg (show ¬ k.1 ≤ c.1 from h), abs_zero]
  rw [e, columns_split]
  linarith [hU k]

theorem lower_band {n β : Nat} {M : Fin n → Fin n → ℚ} (hM : Band β M) {r k : Fin n} (h : r < k ∨ k.1 + β < r.1) :
    lowerPart M r k = 0 := by
  unfold lowerPart
  rcases h with h | h
  · rw [if_neg (lt_asymm h), if_neg (ne_of_gt h)]
  · rw [if_pos (show k < r from (by omega : k.1 < r.1)), hM r k (.inl h)]

theorem lower_pivot {n : Nat} {M : Fin n → Fin n → ℚ} {A : ℚ} (hA : 0 ≤ A) (hd : ∀ r, |M r r| ≤ 2 * A)
    (hL : ∀ r k, k < r → |M r k| * |M k k| ≤ 5 / 4 * (2 * A)) {r k : Fin n} (h : k ≤ r) :
    |lowerPart M r k| * |M k k| ≤ 5 / 2 * A := by
  unfold lowerPart
  rcases lt_or_eq_of_le h with h | rfl
  · rw [if_pos h]
    linarith [hL r k h]
  · rw [if_neg (lt_irrefl _), if_pos rfl, abs_one, one_mul]
    linarith [hd k]

/-- The sums of the residual for the factors of a dominant matrix. -/
theorem heavy_sums {n β : Nat} {M : Fin n → Fin n → ℚ} (hM : Band β M) {t A X : ℚ} (ht : 0 < t)
    (hU : ∀ r, t ≤ |M r r| ∧ |M r r| ≤ 2 * A ∧ ∑ c ∈ columns n (r.1 + 1), |M r c| ≤ |M r r|)
    (hL : ∀ r k, k < r → |M r k| * |M k k| ≤ 5 / 4 * (2 * A)) {x : Fin n → ℚ} (hx : ∀ c, |x c| ≤ X) (r : Fin n) :
    ∑ k, |lowerPart M r k| * ∑ c, |upperPart M k c| * |x c| ≤ ((β + 1 : Nat) : ℚ) * (5 * A * X) ∧
    ∑ k, |lowerPart M r k| * (1 + |M k k|) ≤ ((β + 1 : Nat) : ℚ) * (5 / 2 * A * (1 / t + 1)) ∧
    ∑ c, (1 + |M c c|) * |x c| ≤ n * ((1 + 2 * A) * X) := by
  have hX : 0 ≤ X := (abs_nonneg _).trans (hx r)
  have hA : 0 ≤ A := by linarith [abs_nonneg (M r r), (hU r).2.1]
  have hp := fun {r k : Fin n} => lower_pivot (r := r) (k := k) hA (fun r => (hU r).2.1) hL
  refine ⟨band_sum r (fun k hk => by rw [lower_band hM hk, abs_zero, zero_mul]) (by positivity) fun k hk => ?_,
    band_sum r (fun k hk => by rw [lower_band hM hk, abs_zero, zero_mul]) (by positivity) fun k hk => ?_, ?_⟩
  · have h1 : ∑ c, |upperPart M k c| * |x c| ≤ 2 * |M k k| * X := by
      calc _ ≤ ∑ c, |upperPart M k c| * X := Finset.sum_le_sum fun c _ => mul_le_mul_of_nonneg_left (hx c) (abs_nonneg _)
        _ = (∑ c, |upperPart M k c|) * X := by rw [Finset.sum_mul]
        _ ≤ _ := mul_le_mul_of_nonneg_right (upper_sum M (fun r => (hU r).2.2) k) hX
    calc _ ≤ |lowerPart M r k| * (2 * |M k k| * X) := mul_le_mul_of_nonneg_left h1 (abs_nonneg _)
      _ = 2 * X * (|lowerPart M r k| * |M k k|) := by ring
      _ ≤ 2 * X * (5 / 2 * A) := mul_le_mul_of_nonneg_left (hp hk) (by positivity)
      _ = _ := by ring
  · have h1 : |lowerPart M r k| ≤ 5 / 2 * A * (1 / t) := by
      have h2 := (mul_le_mul_of_nonneg_left (hU k).1 (abs_nonneg (lowerPart M r k))).trans (hp hk)
      rw [mul_one_div, le_div_iff₀ ht]
      exact h2
    have h3 := hp hk
    rw [mul_add, mul_one, mul_add, mul_one]
    exact add_le_add h1 h3
  · calc _ ≤ ∑ _c : Fin n, (1 + 2 * A) * X := Finset.sum_le_sum fun c _ =>
          mul_le_mul (by linarith [(hU c).2.1]) (hx c) (abs_nonneg _) (by linarith)
      _ = _ := by rw [Finset.sum_const, nsmul_eq_mul, Finset.card_univ, Fintype.card_fin]

/-- A residual of a dominant matrix bounds the error. -/
theorem dominant_error {n : Nat} {B : Fin n → Fin n → ℚ} {S ρ : ℚ} (hS : 0 < S)
    (hdom : ∀ r, S + ∑ c ∈ Finset.univ.erase r, |B r c| ≤ |B r r|) {d x y : Fin n → ℚ} (hy : Solves B y d)
    (hρ : ∀ r, |d r - ∑ c, B r c * x c| ≤ ρ) (r : Fin n) : |x r - y r| ≤ ρ / S := by
  obtain ⟨m, -, hm⟩ := Finset.exists_max_image Finset.univ (fun r => |x r - y r|) ⟨r, Finset.mem_univ _⟩
  refine (hm r (Finset.mem_univ _)).trans ?_
  rw [le_div_iff₀ hS]
  refine le_trans ?_ (hρ m)
  have e : d m - ∑ c, B m c * x c = -(B m m * (x m - y m) + ∑ c ∈ Finset.univ.erase m, B m c * (x c - y c)) := by
    rw [Finset.add_sum_erase _ (fun c => B m c * (x c - y c)) (Finset.mem_univ m), ← hy m, ← Finset.sum_sub_distrib, ← Finset.sum_neg_distrib]
    exact Finset.sum_congr rfl fun c _ => by ring
  rw [e, abs_neg]
  have h1 : |∑ c ∈ Finset.univ.erase m, B m c * (x c - y c)| ≤ (∑ c ∈ Finset.univ.erase m, |B m c|) * |x m - y m| := by
    refine (Finset.abs_sum_le_sum_abs _ _).trans ?_
    rw [Finset.sum_mul]
    refine Finset.sum_le_sum fun c _ => ?_
    rw [abs_mul]
    exact mul_le_mul_of_nonneg_left (hm c (Finset.mem_univ _)) (abs_nonneg _)
  have h2 := abs_sub_abs_le_abs_sub (B m m * (x m - y m)) (-∑ c ∈ Finset.univ.erase m, B m c * (x c - y c))
  rw [abs_neg, sub_neg_eq_add, abs_mul] at h2
  have h3 := mul_le_mul_of_nonneg_right (hdom m) (abs_nonneg (x m - y m))
  rw [add_mul] at h3
  linarith

/-- The constants of the residual. -/
theorem heavy_constants {m n t A X : ℚ} (hm : 1 ≤ m) (hn : n ≤ 2 ^ 49) (ht : 1 / 2 ^ 100 ≤ t) (htA : t ≤ A) (hX : 0 ≤ X) :
    m / 2 ^ 50 * (m * (5 * A * X)) +
      6 * m / 2 ^ 1075 * (1 + 2 * (m * (5 / 2 * A * (1 / t + 1))) + n * ((1 + 2 * A) * X)) ≤
    m ^ 2 * A * (6 * X / 2 ^ 50 + 1 / 2 ^ 900) := by
  have hP : (0 : ℚ) < 2 ^ 100 := by positivity
  have ht0 : 0 < t := lt_of_lt_of_le (by positivity) ht
  have hA0 : 0 < A := ht0.trans_le htA
  have h1t : 1 / t ≤ 2 ^ 100 := by
    rw [div_le_iff₀ ht0]
    have := mul_le_mul_of_nonneg_left ht hP.le
    rwa [mul_one_div_cancel hP.ne'] at this
  have h1A : 1 ≤ 2 ^ 100 * A := by
    have := mul_le_mul_of_nonneg_left (ht.trans htA) hP.le
    rwa [mul_one_div_cancel hP.ne'] at this
  have a1 : 1 + 2 * (m * (5 / 2 * A * (1 / t + 1))) ≤ m * (2 ^ 103 * A) := by
    have b1 : 5 / 2 * A * (1 / t + 1) ≤ 5 / 2 * A * (2 ^ 100 + 1) := by gcongr
    have b2 : m * (5 / 2 * A * (1 / t + 1)) ≤ m * (5 / 2 * A * (2 ^ 100 + 1)) := mul_le_mul_of_nonneg_left b1 (by linarith)
    have b3 : 2 ^ 100 * A ≤ m * (2 ^ 100 * A) := le_mul_of_one_le_left (by positivity) hm
    have b4 : 0 < m * A := by positivity
    nlinarith
  have a2 : n * ((1 + 2 * A) * X) ≤ 2 ^ 151 * A * X := by
    have b1 : 1 + 2 * A ≤ 2 ^ 101 * A := by nlinarith
    have b2 : (1 + 2 * A) * X ≤ 2 ^ 101 * A * X := mul_le_mul_of_nonneg_right b1 hX
    have b3 : n * ((1 + 2 * A) * X) ≤ 2 ^ 49 * (2 ^ 101 * A * X) := mul_le_mul hn b2 (by positivity) (by positivity)
    refine b3.trans ?_
    have b4 : 0 ≤ A * X := by positivity
    nlinarith
  have a3 : (1 : ℚ) / 2 ^ 1075 = 1 / 2 ^ 900 * (1 / 2 ^ 175) := by
    rw [show (1075 : ℕ) = 900 + 175 from rfl, pow_add, one_div_mul_one_div]
  have a4 : (1 : ℚ) / 2 ^ 900 ≤ 1 / 2 ^ 60 :=
    one_div_le_one_div_of_le (by positivity) (pow_le_pow_right₀ (by norm_num) (by norm_num))
  have a5 : (0 : ℚ) < 1 / 2 ^ 900 := by positivity
  rw [show 6 * m / 2 ^ 1075 = 6 * m * (1 / 2 ^ 1075) by rw [mul_one_div], a3]
  generalize (1 : ℚ) / 2 ^ 900 = e at *
  have c1 : 6 * m * (e * (1 / 2 ^ 175)) * (1 + 2 * (m * (5 / 2 * A * (1 / t + 1))) + n * ((1 + 2 * A) * X)) ≤
      6 * m * (e * (1 / 2 ^ 175)) * (m * (2 ^ 103 * A) + 2 ^ 151 * A * X) :=
    mul_le_mul_of_nonneg_left (add_le_add a1 a2) (by positivity)
  have c2 : 6 * m * (e * (1 / 2 ^ 175)) * (m * (2 ^ 103 * A)) ≤ m ^ 2 * A * e := by
    have : 0 ≤ m ^ 2 * A * e := by positivity
    have e1 : 6 * m * (e * (1 / 2 ^ 175)) * (m * (2 ^ 103 * A)) = m ^ 2 * A * e * (6 * (1 / 2 ^ 175) * 2 ^ 103) := by ring
    rw [e1]
    exact mul_le_of_le_one_right this (by norm_num)
  have c3 : 6 * m * (e * (1 / 2 ^ 175)) * (2 ^ 151 * A * X) ≤ m ^ 2 * A * X / 2 ^ 50 := by
    have b1 : m * A * X ≤ m ^ 2 * A * X := by
      have : m ≤ m ^ 2 := by nlinarith
      gcongr
    have e1 : 6 * m * (e * (1 / 2 ^ 175)) * (2 ^ 151 * A * X) = e * (m * A * X * (6 / 2 ^ 24)) := by ring
    rw [e1]
    have b2 : e * (m * A * X * (6 / 2 ^ 24)) ≤ 1 / 2 ^ 60 * (m * A * X * (6 / 2 ^ 24)) := mul_le_mul_of_nonneg_right a4 (by positivity)
    have b3 : 0 ≤ m * A * X := by positivity
    nlinarith
  have e2 : m / 2 ^ 50 * (m * (5 * A * X)) + m ^ 2 * A * X / 2 ^ 50 + m ^ 2 * A * e = m ^ 2 * A * (6 * X / 2 ^ 50 + e) := by ring
  rw [mul_add] at c1
  linarith

/-! ### Finite solutions -/

theorem less_works {V : Type} [Sub V] [Mul V] [Div V] {F : Arith V} {val : V → ℚ → Prop} {n : Nat} {u η R : ℚ} (hf : Works F val u η R) {v T G : ℚ} {m y : Fin n → ℚ} {a k : Nat}
    (hT : |v| + Lu.psum (fun c => |m c| * |y c|) a k + 2 * k * η ≤ T) (hG : (1 + u) ^ (k + 1) ≤ G) (hR : G * T ≤ R)
    {v' : V} {m' y' : Fin n → V} (hv : val v' v) (hmy : ∀ c : Fin n, a ≤ c.1 → c.1 < a + k → val (m' c) (m c) ∧ val (y' c) (y c)) :
    ∃ q, val (less v' (fun c => m' c * y' c) a k) q ∧ |q| ≤ (1 + u) ^ (k + 1) * T := by
  have hu := hf.u_nonneg
  have hη := hf.η_nonneg
  have hu1 : 1 ≤ 1 + u := by linarith
  induction k generalizing T with
  | zero =>
    refine ⟨v, hv, ?_⟩
    rw [Lu.psum_zero] at hT
    have h1 := abs_nonneg v
    have h2 : |v| ≤ T := by simpa using hT
    rw [zero_add, pow_one]
    nlinarith
  | succ k ih =>
    have hk1 : 1 ≤ (1 + u) ^ (k + 1) := one_le_pow₀ hu1
    have hk2 : (1 + u) ^ (k + 1 + 1) = (1 + u) ^ (k + 1) * (1 + u) := pow_succ _ _
    have hks : (1 + u) ^ (k + 1) ≤ (1 + u) ^ (k + 1 + 1) := by rw [hk2]; exact le_mul_of_one_le_right (by positivity) hu1
    by_cases hm : a + k < n
    · set w := |m ⟨a + k, hm⟩| * |y ⟨a + k, hm⟩| with hw
      have hw0 : 0 ≤ w := by positivity
      have e : Lu.psum (fun c => |m c| * |y c|) a (k + 1) = Lu.psum (fun c => |m c| * |y c|) a k + w := Lu.psum_succ _ a k hm
      have hp0 : 0 ≤ Lu.psum (fun c => |m c| * |y c|) a k := psum_nonneg (fun c => mul_nonneg (abs_nonneg _) (abs_nonneg _)) _ _
      have hv0 := abs_nonneg v
      have hkη : 0 ≤ (k : ℚ) * η := by positivity
      rw [e] at hT
      push_cast at hT
      have hG1 : 1 ≤ G := (one_le_pow₀ hu1).trans hG
      have hT0 : 0 ≤ T := by linarith
      have hTG : T ≤ G * T := le_mul_of_one_le_left hT0 hG1
      obtain ⟨q, h1, h2⟩ := ih (T := T - w - 2 * η) (by linarith) (hks.trans hG)
        ((mul_le_mul_of_nonneg_left (by linarith) (by linarith)).trans hR) (fun c hc hc' => hmy c hc (by omega))
      obtain ⟨g1, g2⟩ := hmy ⟨a + k, hm⟩ (by simp) (by simp)
      have hd' : |q| + ((1 + u) * w + η) ≤ (1 + u) ^ (k + 1) * (T - η) := by
        have h4 : (1 + u) * w ≤ (1 + u) ^ (k + 1) * w := mul_le_mul_of_nonneg_right (by
          rw [pow_succ]; exact le_mul_of_one_le_left (by linarith) (one_le_pow₀ hu1)) hw0
        have h5 : η ≤ (1 + u) ^ (k + 1) * η := le_mul_of_one_le_left hη hk1
        nlinarith
      obtain ⟨p, q', hpe, h3, hq'⟩ := hf.diff h1 g1 g2 (by
        rw [abs_mul, ← hw]
        refine le_trans (by linarith) (hd'.trans (le_trans ?_ hR))
        exact mul_le_mul (hks.trans hG) (by linarith) (by linarith) (by linarith))
      have hpa : |p| ≤ (1 + u) * w + η := by
        have := abs_add_le (p - m ⟨a + k, hm⟩ * y ⟨a + k, hm⟩) (m ⟨a + k, hm⟩ * y ⟨a + k, hm⟩)
        rw [sub_add_cancel] at this
        rw [abs_mul, ← hw] at this hpe
        linarith
      have hd : |q - p| ≤ (1 + u) ^ (k + 1) * (T - η) := by linarith [abs_sub q p]
      refine ⟨q', ?_, ?_⟩
      · rw [less, dif_pos hm]
        exact hq'
      · have h4 := abs_add_le (q' - (q - p)) (q - p)
        rw [sub_add_cancel] at h4
        have h5 := mul_le_mul_of_nonneg_left hd (show 0 ≤ 1 + u by linarith)
        have h6 : η ≤ (1 + u) ^ (k + 1 + 1) * η := le_mul_of_one_le_left hη (hk1.trans hks)
        have h7 : (1 + u) * ((1 + u) ^ (k + 1) * (T - η)) = (1 + u) ^ (k + 1 + 1) * T - (1 + u) ^ (k + 1 + 1) * η := by rw [hk2]; ring
        linarith
    · have e : Lu.psum (fun c => |m c| * |y c|) a (k + 1) = Lu.psum (fun c => |m c| * |y c|) a k := by
        unfold Lu.psum
        refine Finset.sum_congr rfl fun c _ => ?_
        have : (a ≤ c.1 ∧ c.1 < a + (k + 1)) ↔ (a ≤ c.1 ∧ c.1 < a + k) := by have := c.2; omega
        simp only [this]
      rw [e] at hT
      push_cast at hT
      have hp0 : 0 ≤ Lu.psum (fun c => |m c| * |y c|) a k := psum_nonneg (fun c => mul_nonneg (abs_nonneg _) (abs_nonneg _)) _ _
      have hkη : 0 ≤ (k : ℚ) * η := by positivity
      obtain ⟨q, h1, h2⟩ := ih (by linarith) (hks.trans hG) hR (fun c hc hc' => hmy c hc (by omega))
      refine ⟨q, by rw [less, dif_neg hm]; exact h1, h2.trans (mul_le_mul_of_nonneg_right hks ?_)⟩
      linarith [abs_nonneg v]

theorem less_reach {n : Nat} {u η R : ℚ} (hf : Fine binary64 u η R) {v T G : ℚ} {m y : Fin n → ℚ} {a k : Nat}
    (hT : |v| + Lu.psum (fun c => |m c| * |y c|) a k + 2 * k * η ≤ T) (hG : (1 + u) ^ (k + 1) ≤ G) (hR : G * T ≤ R) :
    ∃ q, less (fin v : Num binary64) (fun c => fin (m c) * fin (y c)) a k = fin q ∧ |q| ≤ (1 + u) ^ (k + 1) * T :=
  less_works (works_num hf) hT hG hR rfl fun _ _ _ => ⟨rfl, rfl⟩

theorem psum_left {n : Nat} (f : Fin n → ℚ) (r : Fin n) : Lu.psum f 0 r.1 = ∑ k ∈ columnsLeft n r.1, f k := by
  unfold Lu.psum columnsLeft
  rw [Finset.sum_filter]
  simp

theorem psum_right {n : Nat} (f : Fin n → ℚ) (r : Fin n) : Lu.psum f (r.1 + 1) (n - (r.1 + 1)) = ∑ k ∈ columns n (r.1 + 1), f k := by
  unfold Lu.psum columns
  rw [Finset.sum_filter]
  refine Finset.sum_congr rfl fun c _ => ?_
  have : (r.1 + 1 ≤ c.1 ∧ c.1 < r.1 + 1 + (n - (r.1 + 1))) ↔ r.1 + 1 ≤ c.1 := by have := c.2; omega
  simp only [this]

/-- Both sweeps stay in the range of doubles. -/
theorem sweeps_finite {V : Type} [Sub V] [Mul V] [Div V] {F : Arith V} {val : V → ℚ → Prop} {n : Nat} {u η R G Z D S : ℚ}
    (hf : Works F val u η R) (hG : (1 + u) ^ (n + 2) ≤ G) (hZ : 0 ≤ Z)
    (hZR : 2 * Z ≤ R) {M : Fin n → Fin n → ℚ} (h0 : ∀ r, 0 < |M r r|) (hgap : ∀ r, S + ∑ k ∈ columnsLeft n r.1, |M r k| * excess M k ≤ excess M r)
    (hfor : ∀ r, G * (D + Z * (excess M r - S) + 2 * n * η) ≤ Z * excess M r)
    (hback : ∀ r, G * (2 * Z * |M r r| - Z * excess M r + 2 * n * η) + η * |M r r| ≤ 2 * Z * |M r r|)
    (hR : ∀ r, 2 * Z * |M r r| ≤ R) {d : Fin n → ℚ} (hd : ∀ r, |d r| ≤ D) {N : Fin n → Fin n → V} (hN : ∀ r c, val (N r c) (M r c))
    {b y x : Fin n → V} (hb : ∀ r, val (b r) (d r)) (hy : ∀ r, y r = less (b r) (fun c => N r c * y c) 0 r.1)
    (hx : ∀ r, x r = less (y r) (fun c => N r c * x c) (r.1 + 1) (n - (r.1 + 1)) / N r r) (r : Fin n) :
    ∃ q, val (x r) q ∧ |q| ≤ 2 * Z := by
  have hu := hf.u_nonneg
  have hη := hf.η_nonneg
  have hu1 : 1 ≤ 1 + u := by linarith
  have hGk : ∀ k, k ≤ n + 2 → (1 + u) ^ k ≤ G := fun k hk => (pow_le_pow_right₀ hu1 hk).trans hG
  have hG1 : 1 ≤ G := (one_le_pow₀ hu1).trans hG
  have hgapM : ∀ r, excess M r ≤ |M r r| := fun r => by
    have : 0 ≤ ∑ c ∈ columns n (r.1 + 1), |M r c| := Finset.sum_nonneg fun _ _ => abs_nonneg _
    unfold excess
    linarith
  have kη : ∀ k : Nat, k ≤ n → 2 * (k : ℚ) * η ≤ 2 * n * η := fun k hk => by
    have : (k : ℚ) ≤ n := by exact_mod_cast hk
    gcongr
  have forward : ∀ L, ∀ r : Fin n, r.1 < L → ∃ q, val (y r) q ∧ |q| ≤ Z * excess M r := by
    intro L
    induction L with
    | zero => exact fun r hr => absurd hr (Nat.not_lt_zero _)
    | succ L ih =>
      intro r hr
      have hv : ∀ c : Fin n, ∃ q, c.1 < r.1 → val (y c) q ∧ |q| ≤ Z * excess M c := fun c => by
        by_cases hc : c.1 < r.1
        · obtain ⟨q, h⟩ := ih c (by omega)
          exact ⟨q, fun _ => h⟩
        · exact ⟨0, fun h => absurd h hc⟩
      choose v hv using hv
      have hs : Lu.psum (fun c => |M r c| * |v c|) 0 r.1 ≤ Z * (excess M r - S) := by
        rw [psum_left]
        calc _ ≤ ∑ k ∈ columnsLeft n r.1, Z * (|M r k| * excess M k) := Finset.sum_le_sum fun k hk => by
              have := mul_le_mul_of_nonneg_left (hv k (mem_columnsLeft.mp hk)).2 (abs_nonneg (M r k))
              linarith
          _ = Z * ∑ k ∈ columnsLeft n r.1, |M r k| * excess M k := by rw [Finset.mul_sum]
          _ ≤ _ := mul_le_mul_of_nonneg_left (by linarith [hgap r]) hZ
      have hT : |d r| + Lu.psum (fun c => |M r c| * |v c|) 0 r.1 + 2 * r.1 * η ≤ D + Z * (excess M r - S) + 2 * n * η := by
        linarith [hd r, kη r.1 r.2.le]
      have hZg : Z * excess M r ≤ R := by
        have h1 := mul_le_mul_of_nonneg_left (hgapM r) hZ
        have h2 := hR r
        have h3 : 0 ≤ Z * |M r r| := by positivity
        linarith
      obtain ⟨q, h1, h2⟩ := less_works hf hT (hGk (r.1 + 1) (by have := r.2; omega)) ((hfor r).trans hZg) (hb r)
        (fun c _ hc => ⟨hN r c, (hv c (by omega)).1⟩)
      refine ⟨q, by rw [hy r]; exact h1, h2.trans (le_trans (mul_le_mul_of_nonneg_right (hGk _ (by have := r.2; omega)) ?_) (hfor r))⟩
      have hps : 0 ≤ Lu.psum (fun c => |M r c| * |v c|) 0 r.1 := psum_nonneg (fun c => mul_nonneg (abs_nonneg _) (abs_nonneg _)) _ _
      have h3 : 0 ≤ 2 * (r.1 : ℚ) * η := by positivity
      linarith [abs_nonneg (d r)]
  have backward : ∀ L, ∀ r : Fin n, n ≤ r.1 + L → ∃ q, val (x r) q ∧ |q| ≤ 2 * Z := by
    intro L
    induction L with
    | zero => exact fun r hr => absurd r.2 (by omega)
    | succ L ih =>
      intro r hr
      have hv : ∀ c : Fin n, ∃ q, r.1 < c.1 → val (x c) q ∧ |q| ≤ 2 * Z := fun c => by
        by_cases hc : r.1 < c.1
        · obtain ⟨q, h⟩ := ih c (by omega)
          exact ⟨q, fun _ => h⟩
        · exact ⟨0, fun h => absurd h hc⟩
      choose v hv using hv
      obtain ⟨w, hw, hwZ⟩ := forward n r r.2
      have hs : Lu.psum (fun c => |M r c| * |v c|) (r.1 + 1) (n - (r.1 + 1)) ≤ 2 * Z * (|M r r| - excess M r) := by
        rw [psum_right]
        calc _ ≤ ∑ k ∈ columns n (r.1 + 1), 2 * Z * |M r k| := Finset.sum_le_sum fun k hk => by
              have := mul_le_mul_of_nonneg_left (hv k (mem_columns.mp hk)).2 (abs_nonneg (M r k))
              linarith
          _ = 2 * Z * ∑ k ∈ columns n (r.1 + 1), |M r k| := by rw [Finset.mul_sum]
          _ = _ := by unfold excess; ring
      have hps : 0 ≤ Lu.psum (fun c => |M r c| * |v c|) (r.1 + 1) (n - (r.1 + 1)) :=
        psum_nonneg (fun c => mul_nonneg (abs_nonneg _) (abs_nonneg _)) _ _
      have hT : |w| + Lu.psum (fun c => |M r c| * |v c|) (r.1 + 1) (n - (r.1 + 1)) + 2 * (n - (r.1 + 1) : Nat) * η ≤
          2 * Z * |M r r| - Z * excess M r + 2 * n * η := by
        linarith [kη (n - (r.1 + 1)) (by omega)]
      have hb := hback r
      have hηM : 0 ≤ η * |M r r| := by positivity
      obtain ⟨q, h1, h2⟩ := less_works hf hT (hGk (n - (r.1 + 1) + 1) (by omega)) (by linarith [hR r]) hw
        (fun c hc _ => ⟨hN r c, (hv c hc).1⟩)
      set T := 2 * Z * |M r r| - Z * excess M r + 2 * n * η with hTdef
      have hT0 : 0 ≤ T := by
        have h3 : 0 ≤ 2 * ((n - (r.1 + 1) : Nat) : ℚ) * η := by positivity
        linarith [abs_nonneg w]
      have hpow : (1 + u) * (1 + u) ^ (n - (r.1 + 1) + 1) ≤ G := by
        rw [← pow_succ']
        exact hGk _ (by have := r.2; omega)
      have hq : (1 + u) * |q| ≤ G * T := by
        calc (1 + u) * |q| ≤ (1 + u) * ((1 + u) ^ (n - (r.1 + 1) + 1) * T) := mul_le_mul_of_nonneg_left h2 (by linarith)
          _ = (1 + u) * (1 + u) ^ (n - (r.1 + 1) + 1) * T := by ring
          _ ≤ _ := mul_le_mul_of_nonneg_right hpow hT0
      have hq1 : |q| ≤ (1 + u) * |q| := le_mul_of_one_le_left (abs_nonneg _) hu1
      have hquot : |q / M r r| ≤ R := by
        rw [abs_div, div_le_iff₀ (h0 r)]
        have := mul_le_mul_of_nonneg_right hZR (h0 r).le
        linarith
      obtain ⟨z, hz, h3⟩ := hf.quot h1 (hN r r) (abs_pos.mp (h0 r)) hquot
      refine ⟨z, by rw [hx r]; exact hz, ?_⟩
      have h4 := abs_add_le (z - q / M r r) (q / M r r)
      rw [sub_add_cancel] at h4
      have h5 : |z| * |M r r| ≤ 2 * Z * |M r r| := by
        have h6 : |z| ≤ (1 + u) * |q / M r r| + η := by linarith
        have h7 := mul_le_mul_of_nonneg_right h6 (h0 r).le
        have h8 : ((1 + u) * |q / M r r| + η) * |M r r| = (1 + u) * |q| + η * |M r r| := by
          rw [abs_div, add_mul, mul_assoc, div_mul_cancel₀ _ (h0 r).ne']
        linarith
      exact le_of_mul_le_mul_right h5 (h0 r)
  exact backward n r (by omega)

theorem sweep_constants {ε κ ω S S' A D P Z g m : ℚ} (hε : 0 ≤ ε) (hε1 : ε ≤ 1 / 8) (hS : 0 < S) (hS' : 3 / 4 * S ≤ S') (hεA : ε * A ≤ 3 / 32 * S)
    (hP : 0 ≤ P) (hZ : 0 ≤ Z) (hZS : Z * S = 4 * P) (hκ : 0 ≤ κ) (hDκ : D + κ ≤ P) (hω : 0 ≤ ω) (hωm : ω * m ≤ P / 2) (hκP : κ ≤ P / 2)
    (hg : S' ≤ g) (hgm : g ≤ m) (hmA : m ≤ 2 * A) :
    (1 + ε) * (D + Z * (g - S') + κ) ≤ Z * g ∧ (1 + ε) * (2 * Z * m - Z * g + κ) + ω * m ≤ 2 * Z * m := by
  have h1 : 3 * P ≤ Z * S' := by
    have := mul_le_mul_of_nonneg_left hS' hZ
    linarith
  have h2 : Z * S' ≤ Z * g := mul_le_mul_of_nonneg_left hg hZ
  have h3 : ε * (Z * m) ≤ 3 / 4 * P := by
    have a1 := mul_le_mul_of_nonneg_left hmA (mul_nonneg hε hZ)
    have a2 := mul_le_mul_of_nonneg_left hεA hZ
    nlinarith
  have h4 : ε * (Z * g) ≤ ε * (Z * m) := mul_le_mul_of_nonneg_left (mul_le_mul_of_nonneg_left hgm hZ) hε
  have h5 : ε * (D + κ) ≤ ε * P := mul_le_mul_of_nonneg_left hDκ hε
  have h6 : ε * (3 * P) ≤ ε * (Z * S') := mul_le_mul_of_nonneg_left h1 hε
  have h7 : ε * κ ≤ 1 / 8 * κ := mul_le_mul_of_nonneg_right hε1 hκ
  have h8 : 0 ≤ ε * P := by positivity
  have h9 : 0 ≤ ε * (Z * g) := mul_nonneg hε (by linarith)
  constructor <;> nlinarith

theorem reach_bounds {P S A Z p q h R : ℚ} (hS : 0 < S) (hA0 : 0 ≤ A) (hA : A ≤ q) (hq : 1 ≤ q) (hp : 0 < p) (hh : 0 < h) (hP : P ≤ p)
    (hS1 : 1 ≤ h * S) (hZ : 0 ≤ Z) (hZS : Z * S = 4 * P) (hR : 16 * (p * q * h) ≤ R) : 2 * Z ≤ R ∧ 2 * Z * (2 * A) ≤ R := by
  have h1 : Z ≤ 4 * (p * h) := by
    refine le_of_mul_le_mul_right ?_ hS
    have := mul_le_mul hP hS1 zero_le_one hp.le
    nlinarith
  have h2 : Z * A ≤ 4 * (p * h) * q := mul_le_mul h1 hA hA0 (by positivity)
  have h3 : p * h ≤ p * h * q := le_mul_of_one_le_right (by positivity) hq
  have h4 : 0 < p * h := by positivity
  constructor <;> nlinarith

theorem gain_bound {n : Nat} (hn : n + 2 ≤ 2 ^ 52) : (1 + (1 / 2 ^ 53 : ℚ)) ^ (n + 2) ≤ 1 + ((n : ℚ) + 2) / 2 ^ 52 := by
  have h1 := c102_relError hn
  unfold relError at h1
  have h2 : (1 + (1 / 2 ^ 53 : ℚ)) ^ (n + 2) ≤ (1 / (1 - 1 / 2 ^ 53)) ^ (n + 2) := pow_le_pow_left₀ (by norm_num) (by norm_num) _
  push_cast at h1
  linarith

/-- A solution of a dominant system is finite and bounded. -/
theorem finite_works64 {V : Type} [Sub V] [Mul V] [Div V] {F : Arith V} {val : V → ℚ → Prop} {n : Nat}
    (hf : Works F val (1 / 2 ^ 53) (1 / 2 ^ 1075) (2 ^ 1023)) {t A S D : ℚ} (ht : 1 / 2 ^ 100 ≤ t) (hA : A ≤ 2 ^ 400) (hD : D ≤ 2 ^ 400) (htS : t ≤ S) (hSA : S ≤ A)
    (hn : n * A ≤ 2 ^ 47 * S) {M : Fin n → Fin n → ℚ} (h1 : ∀ r, |M r r| ≤ 2 * A)
    (h2 : ∀ r, S - n * A / 2 ^ 49 + ∑ k ∈ columnsLeft n r.1, |M r k| * excess M k ≤ excess M r) (h3 : ∀ r, t ≤ excess M r)
    {d : Fin n → ℚ} (hd : ∀ r, |d r| ≤ D) {N : Fin n → Fin n → V} (hN : ∀ r c, val (N r c) (M r c))
    {b y x : Fin n → V} (hb : ∀ r, val (b r) (d r)) (hy : ∀ r, y r = less (b r) (fun c => N r c * y c) 0 r.1)
    (hx : ∀ r, x r = less (y r) (fun c => N r c * x c) (r.1 + 1) (n - (r.1 + 1)) / N r r) (r : Fin n) :
    ∃ q, val (x r) q ∧ |q| ≤ 8 * (D + A / 2 ^ 900) / S := by
  have ht0 : 0 < t := lt_of_lt_of_le (by positivity) ht
  have hS0 : 0 < S := ht0.trans_le htS
  have hA0 : 0 < A := hS0.trans_le hSA
  have hD0 : 0 ≤ D := (abs_nonneg _).trans (hd r)
  have hn1 : (1 : ℚ) ≤ n := by exact_mod_cast r.pos
  have hn47 : (n : ℚ) ≤ 2 ^ 47 := by
    have : n * A ≤ 2 ^ 47 * A := hn.trans (mul_le_mul_of_nonneg_left hSA (by positivity))
    exact le_of_mul_le_mul_right this hA0
  have hn47' : n ≤ 2 ^ 47 := by exact_mod_cast hn47
  have htA : 1 / 2 ^ 100 ≤ A := ht.trans (htS.trans hSA)
  have h100 : (1 : ℚ) ≤ 2 ^ 100 * A := by
    have := mul_le_mul_of_nonneg_left htA (show (0 : ℚ) ≤ 2 ^ 100 by positivity)
    rwa [mul_one_div_cancel (by positivity)] at this
  have pos : ∀ k ∈ columnsLeft n r.1, (0 : ℚ) ≤ excess M k := fun k _ => ht0.le.trans (h3 k)
  have e1075 : (1 : ℚ) / 2 ^ 1075 = 1 / 2 ^ 900 * (1 / 2 ^ 175) := by
    rw [show (1075 : ℕ) = 900 + 175 from rfl, pow_add, one_div_mul_one_div]
  have hw0 : (0 : ℚ) < 1 / 2 ^ 900 := by positivity
  have hw1 : (1 : ℚ) / 2 ^ 900 ≤ 1 := by
    rw [div_le_one (by positivity)]
    exact one_le_pow₀ (by norm_num)
  have hgM : ∀ r, excess M r ≤ |M r r| := fun r => by
    have : 0 ≤ ∑ c ∈ columns n (r.1 + 1), |M r c| := Finset.sum_nonneg fun _ _ => abs_nonneg _
    unfold excess
    linarith
  have hS' : 3 / 4 * S ≤ S - n * A / 2 ^ 49 := by
    have : n * A / 2 ^ 49 ≤ 1 / 4 * S := by
      rw [div_le_iff₀ (by positivity)]
      linarith
    linarith
  have hg : ∀ r, S - n * A / 2 ^ 49 ≤ excess M r := fun r => by
    have : 0 ≤ ∑ k ∈ columnsLeft n r.1, |M r k| * excess M k :=
      Finset.sum_nonneg fun k _ => mul_nonneg (abs_nonneg _) (ht0.le.trans (h3 k))
    linarith [h2 r]
  have hε1 : ((n : ℚ) + 2) / 2 ^ 52 ≤ 1 / 8 := by
    rw [div_le_iff₀ (by positivity)]
    linarith
  have hεA : ((n : ℚ) + 2) / 2 ^ 52 * A ≤ 3 / 32 * S := by
    have : ((n : ℚ) + 2) * A ≤ 3 * (n * A) := by nlinarith
    rw [div_mul_eq_mul_div, div_le_iff₀ (by positivity)]
    linarith
  have hgain := gain_bound (n := n) (by omega)
  rw [div_eq_mul_one_div A]
  have hη : ∀ m, m ≤ 2 * A → 1 / 2 ^ 1075 * m ≤ (D + A * (1 / 2 ^ 900)) / 2 := by
    intro m hm
    have a1 : 1 / 2 ^ 1075 * m ≤ 1 / 2 ^ 1075 * (2 * A) := mul_le_mul_of_nonneg_left hm (by positivity)
    refine a1.trans ?_
    rw [e1075]
    generalize (1 : ℚ) / 2 ^ 900 = e at *
    have a2 : 0 ≤ A * e := by positivity
    have a3 : e * (1 / 2 ^ 175) * (2 * A) = A * e * (2 / 2 ^ 175) := by ring
    have a4 : A * e * (2 / 2 ^ 175) ≤ A * e * (1 / 2) := mul_le_mul_of_nonneg_left (by norm_num) a2
    linarith
  have hκ : 2 * (n : ℚ) * (1 / 2 ^ 1075) ≤ A * (1 / 2 ^ 900) / 2 := by
    rw [e1075]
    generalize (1 : ℚ) / 2 ^ 900 = e at *
    have a1 : 2 * (n : ℚ) ≤ 2 ^ 148 * A := by linarith
    have a2 : 2 * (n : ℚ) * (e * (1 / 2 ^ 175)) ≤ 2 ^ 148 * A * (e * (1 / 2 ^ 175)) := mul_le_mul_of_nonneg_right a1 (by positivity)
    have a3 : 2 ^ 148 * A * (e * (1 / 2 ^ 175)) = A * e * (1 / 2 ^ 27) := by ring
    have a4 : 0 ≤ A * e := by positivity
    have a5 : A * e * (1 / 2 ^ 27) ≤ A * e * (1 / 2) := mul_le_mul_of_nonneg_left (by norm_num) a4
    linarith
  have hP401 : D + A * (1 / 2 ^ 900) ≤ 2 ^ 401 := by
    have : A * (1 / 2 ^ 900) ≤ A := mul_le_of_le_one_right hA0.le hw1
    have e : (2 : ℚ) ^ 401 = 2 ^ 400 + 2 ^ 400 := by rw [pow_succ]; ring
    rw [e]
    generalize (2 : ℚ) ^ 400 = p at *
    linarith
  have hS100 : 1 ≤ 2 ^ 100 * S := by
    have := mul_le_mul_of_nonneg_left (ht.trans htS) (show (0 : ℚ) ≤ 2 ^ 100 by positivity)
    rwa [mul_one_div_cancel (by positivity)] at this
  have hP0 : 0 ≤ D + A * (1 / 2 ^ 900) := by positivity
  have hκ0 : 0 ≤ 2 * (n : ℚ) * (1 / 2 ^ 1075) := by positivity
  have hω0 : (0 : ℚ) ≤ 1 / 2 ^ 1075 := by positivity
  have hAw : 0 ≤ A * (1 / 2 ^ 900) := by positivity
  have hpw : (16 : ℚ) * 2 ^ 901 ≤ 2 ^ 1023 := by
    rw [show (16 : ℚ) = 2 ^ 4 by norm_num, ← pow_add]
    exact pow_le_pow_right₀ (by norm_num) (by norm_num)
  have hpw2 : (2 : ℚ) ^ 401 * 2 ^ 400 * 2 ^ 100 = 2 ^ 901 := by rw [← pow_add, ← pow_add]
  have hpw3 : 16 * ((2 : ℚ) ^ 401 * 2 ^ 400 * 2 ^ 100) ≤ 2 ^ 1023 := by
    rw [hpw2]
    exact hpw
  have h400 : (1 : ℚ) ≤ 2 ^ 400 := one_le_pow₀ (by norm_num)
  have hp400 : (0 : ℚ) < 2 ^ 400 := by positivity
  have hp401 : (0 : ℚ) < 2 ^ 401 := by positivity
  have hDκ : D + 2 * (n : ℚ) * (1 / 2 ^ 1075) ≤ D + A * (1 / 2 ^ 900) := by
    generalize (1 : ℚ) / 2 ^ 1075 = ω at *
    generalize A * ((1 : ℚ) / 2 ^ 900) = w at *
    linarith
  have hκP : 2 * (n : ℚ) * (1 / 2 ^ 1075) ≤ (D + A * (1 / 2 ^ 900)) / 2 := by
    generalize (1 : ℚ) / 2 ^ 1075 = ω at *
    generalize A * ((1 : ℚ) / 2 ^ 900) = w at *
    linarith
  clear e1075 hκ hw0 hw1 hAw
  generalize hωe : (1 : ℚ) / 2 ^ 1075 = ω at *
  generalize D + A * (1 / 2 ^ 900) = P at *
  set Z := 4 * P / S with hZdef
  have hZS : Z * S = 4 * P := by rw [hZdef, div_mul_cancel₀ _ hS0.ne']
  have hZ0 : 0 ≤ Z := by positivity
  obtain ⟨hZ2, hZA⟩ := reach_bounds (p := 2 ^ 401) (q := 2 ^ 400) (h := 2 ^ 100) (R := 2 ^ 1023) hS0 hA0.le hA h400 hp401 (by positivity) hP401 hS100 hZ0 hZS hpw3
  have key := fun r => sweep_constants (ε := ((n : ℚ) + 2) / 2 ^ 52) (by positivity) hε1 hS0 hS' hεA hP0 hZ0 hZS hκ0 hDκ hω0 (hη _ (h1 r)) hκP
    (hg r) (hgM r) (h1 r)
  obtain ⟨q, k1, k2⟩ := sweeps_finite hf hgain hZ0 hZ2 (fun r => ht0.trans_le ((h3 r).trans (hgM r))) h2 (fun r => (key r).1)
    (fun r => (key r).2) (fun r => (mul_le_mul_of_nonneg_left (h1 r) (by positivity)).trans hZA) hd hN hb hy hx r
  refine ⟨q, k1, k2.trans (le_of_eq ?_)⟩
  rw [hZdef]
  ring

theorem heavy_finite {n : Nat} {t A S D : ℚ} (ht : 1 / 2 ^ 100 ≤ t) (hA : A ≤ 2 ^ 400) (hD : D ≤ 2 ^ 400) (htS : t ≤ S) (hSA : S ≤ A)
    (hn : n * A ≤ 2 ^ 47 * S) {M : Fin n → Fin n → ℚ} (h1 : ∀ r, |M r r| ≤ 2 * A)
    (h2 : ∀ r, S - n * A / 2 ^ 49 + ∑ k ∈ columnsLeft n r.1, |M r k| * excess M k ≤ excess M r) (h3 : ∀ r, t ≤ excess M r)
    {d : Fin n → ℚ} (hd : ∀ r, |d r| ≤ D) {y x : Fin n → Num binary64}
    (hy : ∀ r, y r = less (fin (d r)) (fun c => fin (M r c) * y c) 0 r.1)
    (hx : ∀ r, x r = less (y r) (fun c => fin (M r c) * x c) (r.1 + 1) (n - (r.1 + 1)) / fin (M r r)) (r : Fin n) :
    ∃ q, x r = fin q ∧ |q| ≤ 8 * (D + A / 2 ^ 900) / S :=
  finite_works64 (works_num fine_binary64) ht hA hD htS hSA hn h1 h2 h3 hd (fun _ _ => rfl) (fun _ => rfl) hy hx r

/-! ### The property -/

/-- C207: without pivoting, a matrix of doubles whose rows are dominated by the diagonal is accepted, the residual of every
finite solution is small against the matrix and the solution, and so is its distance from the exact solution. -/
theorem c207_accurate {n β : Nat} (hb : β < 2 ^ 52) {t A S : ℚ} (ht : 1 / 2 ^ 100 ≤ t) (hA : A ≤ 2 ^ 900) (B : Fin n → Fin n → ℚ)
    (hB : ∀ r c, binary64 (B r c) = .fin (B r c)) (hβ : Band β B) (hrow : ∀ r, ∑ c, |B r c| ≤ A)
    (hdom : ∀ r, S + ∑ c ∈ Finset.univ.erase r, |B r c| ≤ |B r r|) (hS : t + n * A / 2 ^ 49 ≤ S) (s : Lu (Num binary64))
    (hs : s.tol = fin t) :
    ∃ s', factorise (Num.arith binary64) false s (mat fun r c => (fin (B r c) : Num binary64)) = .ok (s', true) ∧
    ∀ (d x : Fin n → ℚ) (x0 : List (Num binary64)) (X : ℚ), (∀ r, binary64 (d r) = .fin (d r)) →
      Lu.solve false s' x0 (some (vec fun r => (fin (d r) : Num binary64))) =
        .ok (vec (fun r => (fin (x r) : Num binary64)), true, 1) → (∀ c, |x c| ≤ X) →
      (∀ r, |d r - ∑ c, B r c * x c| ≤ ((β + 1 : Nat) : ℚ) ^ 2 * A * (6 * X / 2 ^ 50 + 1 / 2 ^ 900)) ∧
      ∀ y, Solves B y d → ∀ r, |x r - y r| ≤ ((β + 1 : Nat) : ℚ) ^ 2 * A * (6 * X / 2 ^ 50 + 1 / 2 ^ 900) / S := by
  have ht0 : 0 < t := lt_of_lt_of_le (by positivity) ht
  obtain ⟨M, h1, h2, hg, h3⟩ := factorise_heavy64 ht hA hrow hdom hS s hs
  have h2 := heavy_pivots ht0 (fun r => (h2 r).1) hg
  refine ⟨_, h1, fun d x x0 X hd hx hX => ?_⟩
  have hres : ∀ r, |d r - ∑ c, B r c * x c| ≤ ((β + 1 : Nat) : ℚ) ^ 2 * A * (6 * X / 2 ^ 50 + 1 / 2 ^ 900) := by
    intro r
    have hn0 : 0 < n := r.pos
    obtain ⟨htS, hSA, hn⟩ := heavy_size hn0 ht0 hrow hdom hS
    have hX0 : 0 ≤ X := (abs_nonneg _).trans (hX r)
    obtain ⟨k1, k2, k3⟩ := heavy_sums (c203_band s _ ht0 hs B hB hβ h1 M rfl).1 ht0 h2 h3 hX r
    refine (c203_residual s _ ht0 hs hb B hB hβ h1 M rfl d x x0 hd hx r).trans ?_
    have hm : (1 : ℚ) ≤ ((β + 1 : Nat) : ℚ) := by exact_mod_cast Nat.le_add_left 1 β
    generalize ((β + 1 : Nat) : ℚ) = m at *
    refine le_trans ?_ (heavy_constants hm hn ht (htS.trans hSA) hX0)
    have g1 : (0 : ℚ) ≤ m / 2 ^ 50 := by positivity
    have g2 : (0 : ℚ) ≤ 6 * m / 2 ^ 1075 := by positivity
    exact add_le_add (mul_le_mul_of_nonneg_left k1 g1)
      (mul_le_mul_of_nonneg_left (add_le_add (add_le_add le_rfl (mul_le_mul_of_nonneg_left k2 (by norm_num))) k3) g2)
  refine ⟨hres, fun y hy r => ?_⟩
  have hn0 : 0 < n := r.pos
  exact dominant_error (ht0.trans_le (heavy_size hn0 ht0 hrow hdom hS).1) hdom hy hres r

theorem solved_constants {m A S D e f : ℚ} (hS : 0 < S) (hA : 0 ≤ A) (hD : 0 ≤ D) (he : 48 * (A / S * e) / 2 ^ 50 + e ≤ f) :
    m ^ 2 * A * (6 * (8 * (D + A * e) / S) / 2 ^ 50 + e) / S ≤ m ^ 2 * (A / S) * (D / S / 2 ^ 44 + f) := by
  have h1 : m ^ 2 * A * (6 * (8 * (D + A * e) / S) / 2 ^ 50 + e) / S =
      m ^ 2 * (A / S) * (48 * (D / S) / 2 ^ 50 + (48 * (A / S * e) / 2 ^ 50 + e)) := by
    field_simp
    ring
  rw [h1]
  have h2 : 48 * (D / S) / 2 ^ 50 ≤ D / S / 2 ^ 44 := by
    have : 0 ≤ D / S := by positivity
    rw [div_le_div_iff₀ (by positivity) (by positivity)]
    nlinarith
  exact mul_le_mul_of_nonneg_left (add_le_add h2 he) (by positivity)

theorem small_constants {t A S : ℚ} (ht : 1 / 2 ^ 100 ≤ t) (htS : t ≤ S) (hA : A ≤ 2 ^ 400) :
    48 * (A / S * (1 / 2 ^ 900)) / 2 ^ 50 + 1 / 2 ^ 900 ≤ 1 / 2 ^ 440 := by
  have hS0 : 0 < S := lt_of_lt_of_le (by positivity) (ht.trans htS)
  have hAS : A / S ≤ 2 ^ 400 * 2 ^ 100 := by
    have hS1 : 1 ≤ 2 ^ 100 * S := by
      have := mul_le_mul_of_nonneg_left (ht.trans htS) (show (0 : ℚ) ≤ 2 ^ 100 by positivity)
      rwa [mul_one_div_cancel (by positivity)] at this
    rw [div_le_iff₀ hS0, mul_assoc]
    calc A ≤ 2 ^ 400 * 1 := by rw [mul_one]; exact hA
      _ ≤ _ := mul_le_mul_of_nonneg_left hS1 (by positivity)
  have e9 : (2 : ℚ) ^ 400 * 2 ^ 100 * (1 / 2 ^ 900) = 1 / 2 ^ 400 := by
    rw [show (900 : ℕ) = 400 + 100 + 400 from rfl, pow_add, pow_add]
    field_simp
  have a1 : A / S * (1 / 2 ^ 900) ≤ 1 / 2 ^ 400 := by
    rw [← e9]
    exact mul_le_mul_of_nonneg_right hAS (by positivity)
  have a2 : (1 : ℚ) / 2 ^ 900 ≤ 1 / 2 ^ 441 :=
    one_div_le_one_div_of_le (by positivity) (pow_le_pow_right₀ (by norm_num) (by norm_num))
  have a3 : (1 : ℚ) / 2 ^ 441 = 1 / 2 ^ 400 * (1 / 2 ^ 41) := by
    rw [show (441 : ℕ) = 400 + 41 from rfl, pow_add, one_div_mul_one_div]
  have a4 : (1 : ℚ) / 2 ^ 440 = 1 / 2 ^ 400 * (1 / 2 ^ 40) := by
    rw [show (440 : ℕ) = 400 + 40 from rfl, pow_add, one_div_mul_one_div]
  have a5 : (0 : ℚ) < 1 / 2 ^ 400 := by positivity
  rw [a3] at a2
  rw [a4]
  clear e9 hAS
  generalize A / S * (1 / 2 ^ 900) = v at *
  generalize (1 : ℚ) / 2 ^ 900 = v' at *
  generalize (1 : ℚ) / 2 ^ 400 = v'' at *
  clear hA
  linarith

/-- C207: a dominant system whose numbers are at most 2^400 in size is accepted, and for every right hand side the solution
returned is finite, bounded, and close to the exact solution. -/
theorem c207_solved {n β : Nat} (hb : β < 2 ^ 52) {t A S : ℚ} (ht : 1 / 2 ^ 100 ≤ t) (hA : A ≤ 2 ^ 400) (B : Fin n → Fin n → ℚ)
    (hB : ∀ r c, binary64 (B r c) = .fin (B r c)) (hβ : Band β B) (hrow : ∀ r, ∑ c, |B r c| ≤ A)
    (hdom : ∀ r, S + ∑ c ∈ Finset.univ.erase r, |B r c| ≤ |B r r|) (hS : t + n * A / 2 ^ 47 ≤ S) (s : Lu (Num binary64))
    (hs : s.tol = fin t) :
    ∃ s', factorise (Num.arith binary64) false s (mat fun r c => (fin (B r c) : Num binary64)) = .ok (s', true) ∧
    ∀ (d : Fin n → ℚ) (D : ℚ) (x0 : List (Num binary64)), (∀ r, binary64 (d r) = .fin (d r)) → (∀ r, |d r| ≤ D) → D ≤ 2 ^ 400 →
      ∃ x : Fin n → ℚ, Lu.solve false s' x0 (some (vec fun r => (fin (d r) : Num binary64))) =
        .ok (vec (fun r => (fin (x r) : Num binary64)), true, 1) ∧
      (∀ r, |x r| ≤ 8 * (D + A / 2 ^ 900) / S) ∧
      ∀ y, Solves B y d → ∀ r, |x r - y r| ≤ ((β + 1 : Nat) : ℚ) ^ 2 * (A / S) * (D / S / 2 ^ 44 + 1 / 2 ^ 440) := by
  have ht0 : 0 < t := lt_of_lt_of_le (by positivity) ht
  have hA9 : A ≤ 2 ^ 900 := hA.trans (pow_le_pow_right₀ (by norm_num) (by norm_num))
  have hS9 : t + n * A / 2 ^ 49 ≤ S := by
    rcases Nat.eq_zero_or_pos n with rfl | hn0
    · simpa using hS
    · have h1 : 0 ≤ ∑ c, |B ⟨0, hn0⟩ c| := Finset.sum_nonneg fun _ _ => abs_nonneg _
      have h2 : 0 ≤ n * A := mul_nonneg (by positivity) (h1.trans (hrow _))
      have h3 : n * A / 2 ^ 49 ≤ n * A / 2 ^ 47 := div_le_div_of_nonneg_left h2 (by positivity) (by norm_num)
      linarith
  obtain ⟨M, h1, h2, hg, -⟩ := factorise_heavy64 ht hA9 hrow hdom hS9 s hs
  obtain ⟨s', k1, k2⟩ := c207_accurate hb ht hA9 B hB hβ hrow hdom hS9 s hs
  rw [h1] at k1
  obtain rfl := (Prod.mk.inj (Out.ok.inj k1)).1
  refine ⟨_, h1, fun d D x0 hd hdD hD => ?_⟩
  obtain ⟨y, w, l1, l2, l3⟩ := solve_any false
    { s with factorised := true, lu := mat (fun r c => (fin (M r c) : Num binary64)) }
    (fun r c => (fin (M r c) : Num binary64)) rfl rfl 1 (by simp) (fun _ => rfl) (fun r => (fin (d r) : Num binary64)) x0
  have hfin : ∀ r, ∃ q, w r = fin q ∧ |q| ≤ 8 * (D + A / 2 ^ 900) / S := by
    intro r
    obtain ⟨htS, hSA, -⟩ := heavy_size r.pos ht0 hrow hdom hS9
    refine heavy_finite ht hA hD htS hSA ?_ (fun r => (h2 r).1) (fun r => (h2 r).2) hg hdD l2 l3 r
    have : n * A / 2 ^ 47 ≤ S := by linarith
    rw [div_le_iff₀ (by positivity)] at this
    linarith
  choose x hx using hfin
  have e : w = fun r => fin (x r) := funext fun r => (hx r).1
  rw [e] at l1
  refine ⟨x, l1, fun r => (hx r).2, fun z hz r => ?_⟩
  refine ((k2 d x x0 _ hd l1 fun c => (hx c).2).2 z hz r).trans ?_
  obtain ⟨htS, hSA, -⟩ := heavy_size r.pos ht0 hrow hdom hS9
  have hS0 : 0 < S := ht0.trans_le htS
  rw [div_eq_mul_one_div A (2 ^ 900)]
  exact solved_constants hS0 (hS0.le.trans hSA) ((abs_nonneg _).trans (hdD r)) (small_constants ht htS hA)

/-- C207: a grid of n by n vertices in any numbering, reordered by `cuthill_mckee_reverse`: `n + 1` stands in the place of the
bandwidth. -/
theorem c207_grid (n : Nat) (h2 : 2 ≤ n) (hn : n * n < sizeMax) (grid g : Graph)
    (hgrid : Graph.createStructured false n = .ok grid) (p : List Nat) (hp : p.Perm (List.range (n * n)))
    (hg : grid.reorder p = .ok (g, grid)) (sort : List (Nat × Nat) → List (Nat × Nat)) (hsort : Spec.DegreeSort sort) :
    ∃ q g', g.cuthillMckeeReverse sort sizeMax = .ok q ∧ g.reorder q = .ok (g', g) ∧
    ∀ (B : Fin (n * n) → Fin (n * n) → ℚ) (t A S : ℚ), 1 / 2 ^ 100 ≤ t → A ≤ 2 ^ 400 → (∀ r c, binary64 (B r c) = .fin (B r c)) →
    Along g' B → (∀ r, ∑ c, |B r c| ≤ A) → (∀ r, S + ∑ c ∈ Finset.univ.erase r, |B r c| ≤ |B r r|) →
    t + (n * n : Nat) * A / 2 ^ 47 ≤ S → ∀ s : Lu (Num binary64), s.tol = fin t →
    ∃ s', factorise (Num.arith binary64) false s (mat fun r c => (fin (B r c) : Num binary64)) = .ok (s', true) ∧
    ∀ (d : Fin (n * n) → ℚ) (D : ℚ) (x0 : List (Num binary64)), (∀ r, binary64 (d r) = .fin (d r)) → (∀ r, |d r| ≤ D) → D ≤ 2 ^ 400 →
      ∃ x : Fin (n * n) → ℚ, Lu.solve false s' x0 (some (vec fun r => (fin (d r) : Num binary64))) =
        .ok (vec (fun r => (fin (x r) : Num binary64)), true, 1) ∧
      (∀ r, |x r| ≤ 8 * (D + A / 2 ^ 900) / S) ∧
      ∀ y, Solves B y d → ∀ r, |x r - y r| ≤ ((n + 1 : Nat) : ℚ) ^ 2 * (A / S) * (D / S / 2 ^ 44 + 1 / 2 ^ 440) := by
  obtain ⟨q, q', g', g'', h3, -, -, h6, h7, h8⟩ := c166_default n h2 hn grid g hgrid p hp hg sort hsort
  have hgr := gridBy_of h2 hn hgrid hp hg
  obtain ⟨q1, k1, k2, -⟩ := (c20_reverse sort hsort g hgr.reach sizeMax).1 q h3
  obtain rfl : q1 = q' := Out.ok.inj (k1.symm.trans h6)
  have hr : Spec.Reachable false g'' := by
    refine Graph.Reachable.step hgr.reach (op := .reorder q1) ?_ (by simp [Spec.step, h7])
    show q1.Perm (List.range q1.length)
    rwa [k2.length_eq, List.length_range]
  have hlt : n < 2 ^ 52 := by
    by_contra hc
    have : 2 ^ 52 * 2 ^ 52 ≤ n * n := Nat.mul_le_mul (by omega) (by omega)
    have e : sizeMax = 2 ^ 64 - 1 := rfl
    omega
  exact ⟨q1, g'', h6, h7, fun B t A S ht hA hB hAl hrow hdom hS s hs =>
    c207_solved hlt ht hA B hB (along_band hr h8 hAl) hrow hdom hS s hs⟩

/-- A dominant matrix with elements of both signs. -/
def mixedSigns (r c : Fin 3) : ℚ := ([[3, -1, 0], [1, -4, 2], [0, 1, 3]].getD r.1 []).getD c.1 0

example : (∀ r c, binary64 (mixedSigns r c) = .fin (mixedSigns r c)) ∧ Band 1 mixedSigns ∧ (∀ r, ∑ c, |mixedSigns r c| ≤ 7) ∧
    (∀ r, 1 + ∑ c ∈ Finset.univ.erase r, |mixedSigns r c| ≤ |mixedSigns r r|) ∧
    (64 * (1 / 2 ^ 52) : ℚ) + (3 : Nat) * 7 / 2 ^ 47 ≤ 1 ∧ (1 / 2 ^ 100 : ℚ) ≤ 64 * (1 / 2 ^ 52) ∧
    freshDouble.tol = fin (64 * (1 / 2 ^ 52)) := by
  refine ⟨by decide +kernel, by unfold Band; decide +kernel, by decide +kernel, by decide +kernel, by norm_num, by norm_num, rfl⟩

/-- Its factors. -/
def mixedFactors (r c : Fin 3) : ℚ :=
  ([[3, -1, 0], [6004799503160661 / 18014398509481984, -8256599316845909 / 2251799813685248, 2],
    [0, -4913017775313269 / 18014398509481984, 7983653884884061 / 2251799813685248]].getD r.1 []).getD c.1 0

/-- Its factorisation and a solution are rounded. -/
example : ∃ s', factorise (Num.arith binary64) false freshDouble (mat fun r c => (fin (mixedSigns r c) : Num binary64)) = .ok (s', true) ∧
    Lu.solve false s' [fin 0, fin 0, fin 0] (some [fin 1, fin 0, fin 0]) =
      .ok ([fin (6466707157249943 / 18014398509481984), fin (1385722962267845 / 18014398509481984),
        fin (-7390522465428507 / 288230376151711744)], true, 1) :=
  ⟨⟨true, freshDouble.tol, mat (fun r c => (fin (mixedFactors r c) : Num binary64)), []⟩, by decide +kernel, by decide +kernel⟩

end Disa.Props
