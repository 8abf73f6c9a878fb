import Verif.Spec.Dist
import Mathlib.Data.Finset.Card
import Mathlib.Order.Interval.Finset.Nat

/-! # Facts about distances -/

namespace Disa.Spec

variable {E : Nat → Nat → Prop} {S : Nat → Prop}

theorem Walk.single {u v : Nat} (h : E u v) : Walk E 1 u v := ⟨u, rfl, h⟩

theorem Walk.append {u v w m n : Nat} (h1 : Walk E m u v) (h2 : Walk E n v w) : Walk E (m + n) u w := by
  induction n generalizing w with
  | zero => simp only [Walk] at h2; subst h2; exact h1
  | succ n ih => obtain ⟨x, hx, he⟩ := h2; exact ⟨x, ih hx, he⟩

theorem Walk.symm (hs : ∀ u v, E u v → E v u) {u v n : Nat} (h : Walk E n u v) : Walk E n v u := by
  induction n generalizing v with
  | zero => exact Eq.symm h
  | succ n ih =>
    obtain ⟨w, hw, he⟩ := h
    have := Walk.append (Walk.single (hs _ _ he)) (ih hw)
    rwa [Nat.add_comm] at this

theorem Walk.mono {E' : Nat → Nat → Prop} (hE : ∀ u v, E u v → E' u v) {u v n : Nat} (h : Walk E n u v) : Walk E' n u v := by
  induction n generalizing v with
  | zero => exact h
  | succ n ih => obtain ⟨w, hw, he⟩ := h; exact ⟨w, ih hw, hE _ _ he⟩

theorem isDist_zero {v : Nat} : IsDist E S v 0 ↔ S v := by
  constructor
  · rintro ⟨⟨s, hs, hw⟩, _⟩
    have : s = v := hw
    exact this ▸ hs
  · intro h; exact ⟨⟨v, h, rfl⟩, by intro j hj; omega⟩

theorem IsDist.unique {v j k : Nat} (h1 : IsDist E S v j) (h2 : IsDist E S v k) : j = k := by
  rcases Nat.lt_trichotomy j k with h | h | h
  · obtain ⟨s, hs, hw⟩ := h1.1; exact absurd hw (h2.2 j h s hs)
  · exact h
  · obtain ⟨s, hs, hw⟩ := h2.1; exact absurd hw (h1.2 k h s hs)

theorem exists_isDist_le {v n s : Nat} (hs : S s) (h : Walk E n s v) : ∃ k, k ≤ n ∧ IsDist E S v k := by
  classical
  have hex : ∃ n, ∃ s, S s ∧ Walk E n s v := ⟨n, s, hs, h⟩
  refine ⟨Nat.find hex, Nat.find_min' hex ⟨s, hs, h⟩, Nat.find_spec hex, ?_⟩
  intro j hj s hs hw
  exact Nat.find_min hex hj ⟨s, hs, hw⟩

theorem reached_iff {v : Nat} : Reached E S v ↔ ∃ k, IsDist E S v k := by
  constructor
  · rintro ⟨n, s, hs, h⟩
    obtain ⟨k, _, hk⟩ := exists_isDist_le hs h
    exact ⟨k, hk⟩
  · rintro ⟨k, ⟨s, hs, h⟩, _⟩; exact ⟨k, s, hs, h⟩

theorem IsDist.pred {v k : Nat} (h : IsDist E S v (k + 1)) : ∃ p, IsDist E S p k ∧ E p v := by
  obtain ⟨⟨s, hs, p, hp, he⟩, hmin⟩ := h
  refine ⟨p, ⟨⟨s, hs, hp⟩, ?_⟩, he⟩
  intro j hj t ht hw
  exact hmin (j + 1) (by omega) t ht ⟨p, hw, he⟩

theorem IsDist.succ_le {u v k : Nat} (h : IsDist E S u k) (he : E u v) : ∃ j, j ≤ k + 1 ∧ IsDist E S v j := by
  obtain ⟨⟨s, hs, hw⟩, _⟩ := h
  exact exists_isDist_le hs ⟨u, hw, he⟩

theorem IsDist.le_succ {u v k j : Nat} (h : IsDist E S u k) (he : E u v) (hv : IsDist E S v j) : j ≤ k + 1 := by
  obtain ⟨i, hi, h'⟩ := h.succ_le he
  rw [hv.unique h']; exact hi

/-- Every distance below is attained. -/
theorem IsDist.below {v k j : Nat} (h : IsDist E S v k) (hj : j ≤ k) : ∃ u, IsDist E S u j := by
  induction k generalizing v with
  | zero => have : j = 0 := by omega
            subst this; exact ⟨v, h⟩
  | succ k ih =>
    by_cases hjk : j = k + 1
    · subst hjk; exact ⟨v, h⟩
    · obtain ⟨p, hp, _⟩ := h.pred
      exact ih hp (by omega)

/-- Distances are smaller than the number of vertices. -/
theorem IsDist.lt_card {n : Nat} (hS : ∀ s, S s → s < n) (hE : ∀ u v, E u v → v < n) {v k : Nat}
    (h : IsDist E S v k) : k < n := by
  classical
  have hlt : ∀ u j, IsDist E S u j → u < n := by
    intro u j hu
    cases j with
    | zero => exact hS u (isDist_zero.mp hu)
    | succ j => obtain ⟨p, _, he⟩ := hu.pred; exact hE _ _ he
  choose f hf using fun j (hj : j ≤ k) => h.below hj
  have : (Finset.range (k + 1)).card ≤ (Finset.range n).card := by
    apply Finset.card_le_card_of_injOn (fun j => if hj : j ≤ k then f j hj else 0)
    · intro j hj
      simp only [Finset.coe_range, Set.mem_Iio] at hj ⊢
      rw [dif_pos (by omega)]
      exact hlt _ _ (hf j (by omega))
    · intro i hi j hj hij
      simp only [Finset.coe_range, Set.mem_Iio] at hi hj
      simp only at hij
      rw [dif_pos (by omega), dif_pos (by omega)] at hij
      have h1 := hf i (by omega)
      rw [hij] at h1
      exact h1.unique (hf j (by omega))
  simp at this; omega

end Disa.Spec
