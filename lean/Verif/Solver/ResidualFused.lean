import Verif.Solver.ResidualFloat
import Verif.Solver.SweepFused

/-!
# Rounding errors of residuals with fused operations
-/

namespace Disa.Iterative

open Disa Spec Dense Sparse Props

variable {rnd : ℚ → Fl} {fuse : Hist → Hist → Hist → Bool} {u η : ℚ}

/-- The elements of a row of a matrix with finite elements and the elements of a vector. -/
theorem row_all_fused {n : Nat} {L : Rows (Fused rnd fuse)} {a : Fin n → Fin n → ℚ} (hs : Sorted L) (hb : Bounded n L)
    (hA : ∀ i j : Fin n, ((entry L i j).getD 0).get = .fin (a i j)) (y : Fin n → Fused rnd fuse) (yq : Fin n → ℚ)
    (hy : ∀ j, (y j).get = .fin (yq j)) (i : Fin n) :
    ∃ t : List (Fused rnd fuse × Fused rnd fuse), t.length ≤ n ∧
      dotL (row L i) (vec y) = t.foldl (fun (s : Fused rnd fuse) p => s + p.1 * p.2) 0 ∧
      (t.map fun p => p.1.val * p.2.val).sum = ∑ j, a i j * yq j ∧
      (t.map fun p => |p.1.val * p.2.val|).sum = ∑ j, |a i j * yq j| ∧ ∀ p ∈ t, p.1.IsFin ∧ p.2.IsFin := by
  obtain ⟨yN, hyN⟩ : ∃ yN : Nat → ℚ, ∀ j : Fin n, yN j = yq j :=
    ⟨fun k => if h : k < n then yq ⟨k, h⟩ else 0, fun j => by simp⟩
  have hfin : ∀ e ∈ row L i, ((vec y).getD e.1 0).val = yN e.1 := by
    intro e he
    have hlt := hb i e he
    have h3 : (vec y).getD e.1 0 = y ⟨e.1, hlt⟩ := by simp [vec, hlt]
    rw [h3, show yN e.1 = yq ⟨e.1, hlt⟩ from hyN ⟨e.1, hlt⟩]
    exact (Fused.isFin_of (hy _)).2
  have hsum : ∀ f : ℚ → ℚ, f 0 = 0 → (((row L i).map fun e => (e.2, (vec y).getD e.1 0)).map fun p => f (p.1.val * p.2.val)).sum =
      ∑ j, f (a i j * yq j) := by
    intro f hf
    rw [List.map_map]
    rw [show ((row L i).map ((fun p : Fused rnd fuse × Fused rnd fuse => f (p.1.val * p.2.val)) ∘ fun e => (e.2, (vec y).getD e.1 0))) =
      (row L i).map fun e => f (e.2.val * yN e.1) from List.map_congr_left fun e he => by
        show f (e.2.val * ((vec y).getD e.1 0).val) = _
        rw [hfin e he]]
    rw [sum_lookup (fun k (v : Fused rnd fuse) => f (v.val * yN k)) (hs i) (n := n) (fun e he => hb i e he), Finset.sum_range]
    apply Finset.sum_congr rfl
    intro j _
    have h1 := hA i j
    unfold entry at h1
    cases hl : (row L i).lookup j.1 with
    | none =>
      rw [hl] at h1
      have : (0 : ℚ) = a i j := Fl.fin.inj (show Fl.fin 0 = Fl.fin (a i j) from h1)
      simp [← this, hf]
    | some v =>
      rw [hl] at h1
      have : v.val = a i j := (Fused.isFin_of h1).2
      simp only [Option.map_some, Option.getD_some, this, hyN]
  refine ⟨(row L i).map fun e => (e.2, (vec y).getD e.1 0), ?_, ?_, by exact hsum id rfl, hsum abs abs_zero, fun p hp => ?_⟩
  · rw [List.length_map]
    have := Subgraph.sorted_length (hs i) (n := n) (by
      intro v hv
      unfold keys at hv
      obtain ⟨e, he, rfl⟩ := List.mem_map.mp hv
      exact hb i e he)
    unfold keys at this
    rwa [List.length_map] at this
  · unfold dotL
    rw [List.foldl_map]
  · obtain ⟨e, he, rfl⟩ := List.mem_map.mp hp
    have hlt := hb i e he
    have h1 := hA i ⟨e.1, hlt⟩
    have h2 : entry L i e.1 = some e.2 := by
      unfold entry
      rw [lookup_eq_some (hs i)]
      exact he
    rw [h2, Option.getD_some] at h1
    have h3 : (vec y).getD e.1 0 = y ⟨e.1, hlt⟩ := by simp [vec, hlt]
    refine ⟨(Fused.isFin_of h1).1, ?_⟩
    rw [h3]
    exact (Fused.isFin_of (hy _)).1

/-- The error of the residual of a row. -/
theorem rowDefect_fused (h : Rounds rnd u η) {n : Nat} {L : Rows (Fused rnd fuse)} {a : Fin n → Fin n → ℚ} (hs : Sorted L)
    (hb : Bounded n L) (hA : ∀ i j : Fin n, ((entry L i j).getD 0).get = .fin (a i j)) (X B : Fin n → Fused rnd fuse) (x b : Fin n → ℚ)
    (hX : ∀ j, (X j).get = .fin (x j)) (hB : ∀ j, (B j).get = .fin (b j)) (hst : ∀ j, (B j).Stored) (i : Fin n)
    (hr : (rowDefect L X B i).IsFin) :
    |(rowDefect L X B i).val - defect a x b i| ≤ productError u η (n + 1) (|b i| + ∑ j, |a i j * x j|) := by
  have hu := h.u_nonneg
  have hη := h.η_nonneg
  obtain ⟨t, ht, hf, hsum, habs, -⟩ := row_all_fused hs hb hA X x hX i
  unfold rowDefect at hr ⊢
  rw [hf] at hr ⊢
  obtain ⟨h1, h2, h3⟩ := Fused.sub_isFin (hst i) hr
  rw [(Fused.isFin_of (hB i)).2] at h3
  obtain ⟨-, e2⟩ := sum_fused h t h1
  rw [hsum, habs] at e2
  generalize (t.foldl (fun (s : Fused rnd fuse) p => s + p.1 * p.2) 0).val = v at *
  have hS : |∑ j, a i j * x j| ≤ ∑ j, |a i j * x j| := Finset.abs_sum_le_sum_abs _ _
  have hS0 : 0 ≤ ∑ j, |a i j * x j| := (abs_nonneg _).trans hS
  have e3 := e2.trans (productError_mono h ht hS0)
  have e4 := round_step h h3 (Q := defect a x b i) (e := productError u η n (∑ j, |a i j * x j|))
    (T := |b i| + ∑ j, |a i j * x j|) (by
      unfold defect
      rw [sub_sub_sub_cancel_right]
      exact e3) (by
      unfold defect
      have := abs_sub (∑ j, a i j * x j) (b i)
      linarith)
  refine e4.trans ?_
  have e5 := productError_step hu hη n (T := |b i| + ∑ j, |a i j * x j|) (a := 0) le_rfl
  rw [add_zero, mul_zero, add_zero] at e5
  refine le_trans ?_ e5
  have e6 : productError u η n (∑ j, |a i j * x j|) ≤ productError u η n (|b i| + ∑ j, |a i j * x j|) := by
    have hb0 := abs_nonneg (b i)
    have hP : (1 : ℚ) ≤ (1 + u) ^ (n + 1) := one_le_pow₀ (by linarith)
    unfold productError
    have : ((1 + u) ^ (n + 1) - 1) * (∑ j, |a i j * x j|) ≤ ((1 + u) ^ (n + 1) - 1) * (|b i| + ∑ j, |a i j * x j|) :=
      mul_le_mul_of_nonneg_left (by linarith) (by linarith)
    linarith
  have e7 := mul_le_mul_of_nonneg_left e6 (by linarith : 0 ≤ 1 + u)
  have e8 : 0 ≤ (1 + u) * η := by positivity
  linarith

theorem fold_both {β S : Type} [Add S] (lt : S → S → Bool) (p : β → S) (l : List β) (z : S × S) :
    (l.foldl (fun st i => (st.1 + p i, if lt st.2 (p i) then p i else st.2)) z).1 = l.foldl (fun s i => s + p i) z.1 ∧
    (l.foldl (fun st i => (st.1 + p i, if lt st.2 (p i) then p i else st.2)) z).2 =
      l.foldl (fun s i => if lt s (p i) then p i else s) z.2 := by
  induction l generalizing z with
  | nil => exact ⟨rfl, rfl⟩
  | cons e l ih => exact ih _

/-- The largest of stored numbers. -/
theorem fold_get {β : Type} (p : β → Fused rnd fuse) (l : List β) (z : Fused rnd fuse) :
    (l.foldl (fun s i => if Fl.lt s.get (p i).get then p i else s) z).get =
      l.foldl (fun s i => if Fl.lt s (p i).get then (p i).get else s) z.get := by
  induction l generalizing z with
  | nil => rfl
  | cons e l ih =>
    rw [List.foldl_cons, List.foldl_cons, ih]
    congr 1
    split <;> rfl

/-- A number that is neither infinite nor not a number. -/
def Small (a : Fl) : Prop := a ≠ .nan ∧ a ≠ .inf false

theorem fold_small {β : Type} (p : β → Fl) (l : List β) (hp : ∀ i ∈ l, p i ≠ .nan) :
    ∀ z, Small (l.foldl (fun s i => if Fl.lt s (p i) then p i else s) z) → Small z ∧ ∀ i ∈ l, p i ≠ .inf false := by
  induction l with
  | nil => exact fun z h => ⟨h, fun i hi => absurd hi List.not_mem_nil⟩
  | cons e l ih =>
    intro z h
    rw [List.foldl_cons] at h
    obtain ⟨h1, h2⟩ := ih (fun i hi => hp i (by simp [hi])) _ h
    have he := hp e (by simp)
    have key : Small z ∧ p e ≠ .inf false := by
      generalize p e = q at *
      rcases z with _ | s | z <;> rcases q with _ | s' | q <;> (try cases s) <;> (try cases s') <;>
        simp_all [Small, Fl.lt]
    refine ⟨key.1, fun i hi => ?_⟩
    rcases List.mem_cons.mp hi with rfl | hi
    · exact key.2
    · exact h2 i hi

end Disa.Iterative
