import Verif.Props.Bandwidth
import Verif.Props.Generator
import Mathlib.Tactic.Linarith

/-!
# Property C173: colours of a grid
-/

namespace Disa.Props

open Disa Spec Graph

/-- C173, as stated: two groups of cells without neighbours in the same group. -/
def C173 : Prop := ∀ (n : Nat) (g : Graph), 2 ≤ n → n * n < sizeMax → createStructured false n = .ok g →
  ∃ p, g.greedyMulticolouring = .ok p ∧ Groups (Adj g) (n * n) p 2

/-- C173: the order is by antidiagonals, and each antidiagonal is a group of its own. -/
theorem c173_diagonals (n : Nat) (h2 : 2 ≤ n) (hn : n * n < sizeMax) (g : Graph) (hg : createStructured false n = .ok g) :
    ∃ p, g.greedyMulticolouring = .ok p ∧ p.Perm (List.range (n * n)) ∧ OrdersBy (n * n) (fun v => v % n + v / n) p ∧
      ∀ k, Groups (Adj g) (n * n) p k ↔ 2 * n - 1 ≤ k := by
  obtain ⟨g', h1, h3, h4, h5⟩ := c28_structured false n h2 hn
  rw [hg] at h1
  cases h1
  have hadj : ∀ x y x' y', x < n → y < n → x' < n → y' < n → (Adj g (y * n + x) (y' * n + x') ↔
      (y = y' ∧ x + 1 = x') ∨ (x = x' ∧ y + 1 = y') ∨ (y = y' ∧ x' + 1 = x) ∨ (x = x' ∧ y' + 1 = y)) := by
    intro x y x' y' a b c d
    rw [h5 x y x' y' a b c d]
    simp
  have hcell : ∀ x y, x < n → y < n → y * n + x < n * n := fun x y hx hy => by nlinarith
  have hmod : ∀ x y, x < n → (y * n + x) % n = x ∧ (y * n + x) / n = y := fun x y hx => by
    constructor
    · rw [Nat.add_comm, Nat.add_mul_mod_self_right, Nat.mod_eq_of_lt hx]
    · rw [Nat.add_comm, Nat.add_mul_div_right _ _ (by omega), Nat.div_eq_of_lt hx, Nat.zero_add]
  have hcells : ∀ v, v < n * n → ∃ x y, x < n ∧ y < n ∧ v = y * n + x := fun v hv =>
    ⟨v % n, v / n, Nat.mod_lt _ (by omega), (Nat.div_lt_iff_lt_mul (by omega)).mpr hv, by rw [Nat.mul_comm]; exact (Nat.div_add_mod v n).symm⟩
  have hE : ∀ u v, Adj g u v → u < n * n ∧ v < n * n := fun u v huv => by
    obtain ⟨L, hr, hgood⟩ := reach_rep h3
    rw [hr.sizeVertex] at h4
    rw [hr.adj_eq] at huv
    rw [← h4]
    exact ⟨lt_of_mem_row huv, lt_of_mem_row (hgood.symm rfl u v huv)⟩
  obtain ⟨p, col, hp, hperm, hne, hrule, hord⟩ := c21_greedy g h3 ⟨0, 1, by
    have := (hadj 0 0 1 0 (by omega) (by omega) (by omega) (by omega)).mpr (.inl ⟨rfl, rfl⟩)
    simpa using this⟩
  rw [h4] at hperm hrule hord
  have hcol : ∀ v, v < n * n → col v = v % n + v / n + 1 := by
    refine c21_rule_determines (n * n) (Adj g) col _ hrule ?_
    intro v hv
    obtain ⟨x, y, hx, hy, rfl⟩ := hcells v hv
    have hlow : ∀ u, u < y * n + x → Adj g (y * n + x) u → u % n + u / n + 1 = x + y := by
      intro u hu hadj'
      obtain ⟨x', y', hx', hy', rfl⟩ := hcells u (hE _ _ hadj').2
      rw [(hmod x' y' hx').1, (hmod x' y' hx').2]
      rcases (hadj x y x' y' hx hy hx' hy').mp hadj' with h | h | h | h
      · obtain ⟨rfl, rfl⟩ := h; omega
      · obtain ⟨rfl, rfl⟩ := h; nlinarith
      · omega
      · omega
    refine ⟨fun h => ?_, fun ⟨u, hu, hau⟩ => ?_⟩ <;> simp only [(hmod x y hx).1, (hmod x y hx).2]
    · have hx0 : x = 0 := by
        by_contra h0
        exact h (y * n + (x - 1)) (by omega) ((hadj x y (x - 1) y hx hy (by omega) hy).mpr (by omega))
      have hy0 : y = 0 := by
        by_contra h0
        refine h ((y - 1) * n + x) ?_ ((hadj x y x (y - 1) hx hy hx (by omega)).mpr (by omega))
        have : (y - 1) * n + n = y * n := by rw [← Nat.succ_mul]; congr 1; omega
        omega
      omega
    · have e := hlow u hu hau
      refine ⟨⟨u, hu, hau, by omega⟩, fun w hw haw => by have := hlow w hw haw; omega, ?_⟩
      rintro c ⟨w, hw, haw, hwc⟩ -
      have := hlow w hw haw
      omega
  have hord' : OrdersBy (n * n) (fun v => v % n + v / n) p := by
    intro u v a b hu hv ha hb
    rw [hord u v a b hu hv ha hb, hcol u hu, hcol v hv]
    dsimp only
    omega
  have hlen : p.length = n * n := by rw [hperm.length_eq, List.length_range]
  have hget : ∀ v, v < n * n → ∃ a, p[v]? = some a := fun v hv => ⟨_, List.getElem?_eq_getElem (by omega)⟩
  refine ⟨p, hp, hperm, hord', fun k => ⟨fun ⟨grp, g1, g2, g3⟩ => ?_, fun hk => ⟨fun v => v % n + v / n, fun v hv => ?_, ?_, ?_⟩⟩⟩
  · -- a path through all antidiagonals
    have step : ∀ x y x' y', x < n → y < n → x' < n → y' < n → (y = y' ∧ x + 1 = x') ∨ (x = x' ∧ y + 1 = y') →
        grp (y * n + x) < grp (y' * n + x') := by
      intro x y x' y' hx hy hx' hy' h
      obtain ⟨a, ha⟩ := hget _ (hcell x y hx hy)
      obtain ⟨b, hb⟩ := hget _ (hcell x' y' hx' hy')
      have hab := (hord' _ _ a b (hcell x y hx hy) (hcell x' y' hx' hy') ha hb).mpr (by
        simp only [(hmod x y hx).1, (hmod x y hx).2, (hmod x' y' hx').1, (hmod x' y' hx').2]
        omega)
      have := g2 _ _ a b ha hb hab.le
      have := g3 _ _ ((hadj x y x' y' hx hy hx' hy').mpr (by tauto))
      omega
    have row : ∀ x, x < n → x ≤ grp (0 * n + x) := by
      intro x
      induction x with
      | zero => exact fun _ => Nat.zero_le _
      | succ x ih =>
        intro hx
        have := ih (by omega)
        have := step x 0 (x + 1) 0 (by omega) (by omega) hx (by omega) (.inl ⟨rfl, rfl⟩)
        omega
    have column : ∀ y, y < n → n - 1 + y ≤ grp (y * n + (n - 1)) := by
      intro y
      induction y with
      | zero => exact fun _ => row (n - 1) (by omega)
      | succ y ih =>
        intro hy
        have := ih (by omega)
        have := step (n - 1) y (n - 1) (y + 1) (by omega) (by omega) (by omega) hy (.inr ⟨rfl, rfl⟩)
        omega
    have := column (n - 1) (by omega)
    have := g1 _ (hcell (n - 1) (n - 1) (by omega) (by omega))
    omega
  · obtain ⟨x, y, hx, hy, rfl⟩ := hcells v hv
    simp only [(hmod x y hx).1, (hmod x y hx).2]
    omega
  · intro u v a b ha hb hab
    have hu : u < n * n := by rw [← hlen]; exact (List.getElem?_eq_some_iff.mp ha).1
    have hv : v < n * n := by rw [← hlen]; exact (List.getElem?_eq_some_iff.mp hb).1
    by_contra hc
    have := (hord' v u b a hv hu hb ha).mpr (.inl (by simpa using hc))
    omega
  · intro u v huv
    have := hne u v huv
    rw [hcol u (hE u v huv).1, hcol v (hE u v huv).2] at this
    simp only
    omega

theorem c173_violated : ¬ C173 := by
  intro hc
  obtain ⟨g, h1, -⟩ := c28_structured false 2 le_rfl (by decide)
  obtain ⟨p, hp, hg⟩ := hc 2 g le_rfl (by decide) h1
  obtain ⟨q, hq, -, -, h⟩ := c173_diagonals 2 le_rfl (by decide) g h1
  rw [hp] at hq
  cases hq
  have := (h 2).mp hg
  omega

/-- The grid of three rows and columns. -/
example : ∃ g, createStructured false 3 = .ok g ∧ g.greedyMulticolouring = .ok [0, 1, 3, 2, 4, 6, 5, 7, 8] :=
  ⟨⟨[1, 3, 0, 2, 4, 1, 5, 0, 4, 6, 1, 3, 5, 7, 2, 4, 8, 3, 7, 4, 6, 8, 5, 7], [0, 2, 5, 7, 10, 14, 17, 19, 22, 24]⟩,
    by decide +kernel, by decide +kernel⟩

end Disa.Props
