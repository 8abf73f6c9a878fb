import Verif.Spec.Solver
import Verif.Dense.Vec
import Verif.Props.SparseArith
import Mathlib.Tactic.Ring
import Mathlib.Tactic.Linarith
import Mathlib.Tactic.FieldSimp

/-!
# What sweeps and residuals compute
-/

namespace Disa.Iterative

open Disa Spec Dense Sparse

section generic

variable {S : Type} [Zero S] [Add S] [Neg S] [Mul S] [Div S]

theorem square_rep {n : Nat} {m : Sparse S} {A : Fin n → Fin n → S} (h : Square m A) :
    ∃ L, m.Rep L ∧ Sorted L ∧ Bounded n L ∧ L.length = n ∧ ∀ i j : Fin n, (entry L i j).getD 0 = A i j := by
  obtain ⟨h1, h2, h3, h4⟩ := h
  obtain ⟨L, h5, h6, h7, h8⟩ := inv_built h1
  refine ⟨L, h5, h6, by rw [← h3]; exact h8 rfl, by rw [← h5.sizeRow]; exact h2, fun i j => ?_⟩
  have := h4 i j
  unfold val at this
  rw [lookup_ok h5 (by rw [← h5.sizeRow, h2]; exact i.2)] at this
  simpa using this

omit [Neg S] [Div S] in
/-- The products of the entries off the diagonal, in the order of the columns. -/
theorem offRowDot_fold {m : Sparse S} {L : Rows S} {x : List S} {i : Nat} (h1 : m.Rep L) (h3 : Bounded x.length L)
    (hi : i < L.length) :
    offRowDot m x i = .ok ((row L i).foldl (fun v e => if e.1 = i then v else v + e.2 * x.getD e.1 0) 0) := by
  unfold offRowDot
  simp only [h1.rowBegin hi, h1.rowEnd hi, Out.ok_bind]
  have hp := psum_succ L hi
  have he : psum L (i + 1) - psum L i = L[i].length := by omega
  rw [he]
  obtain ⟨s', e1, e2⟩ := loop_foldl (fun (s t : S) => s = t)
    (fun v (e : Nat × S) => if e.1 = i then v else v + e.2 * x.getD e.1 0) L[i]
    (body := fun k value => do
      let c ← m.colAt (i, psum L i + k)
      if c != i then
        let a ← m.valAt (i, psum L i + k)
        let y ← rd x c
        pure (value + a * y)
      else pure value) (s := 0) (t := 0) (by
      rintro k hk s t rfl
      have hc : L[i][k].1 < x.length := h3 i _ (by rw [row_of_lt hi]; exact List.getElem_mem _)
      refine ⟨_, ?_, rfl⟩
      simp only [h1.valAt hi hk, h1.colAt hi hk, Out.ok_bind]
      by_cases hci : L[i][k].1 = i
      · simp [hci]
      · have hci' : (L[i][k].1 != i) = true := by simpa using hci
        rw [if_pos hci', rd_ok hc, if_neg hci]
        simp only [Out.ok_bind, Out.pure_eq, Out.ok.injEq]
        rw [List.getD_eq_getElem?_getD, List.getElem?_eq_getElem hc]
        rfl) rfl
  rw [e1, e2, ← row_of_lt hi]

omit [Zero S] [Add S] [Neg S] [Mul S] [Div S] in
theorem get_entry {m : Sparse S} {L : Rows S} {i j : Nat} {v : S} (h1 : m.Rep L) (hi : i < L.length)
    (h7 : entry L i j = some v) : m.get i j = .ok v := by
  have h8 := lookup_ok h1 hi j
  rw [h7] at h8
  unfold Spec.lookup at h8
  have hr : i < m.sizeRow := by rw [h1.sizeRow]; exact hi
  unfold Sparse.get
  simp only [hr, decide_true, assert_true, Out.ok_bind]
  rw [h1.contains hi, Out.ok_bind] at h8 ⊢
  by_cases hb : j ∈ keys L[i]
  · simp only [hb, decide_true, if_true] at h8
    simp only [hb, decide_true, assert_true, Out.ok_bind]
    rw [Out.bind_eq_ok] at h8
    obtain ⟨it, h9, h10⟩ := h8
    rw [Out.bind_eq_ok] at h10
    obtain ⟨w, h11, h12⟩ := h10
    simp only [Out.pure_eq, Out.ok.injEq, Option.some.injEq] at h12
    rw [h9, Out.ok_bind, h11, h12]
  · simp [hb] at h8

/-- The diagonal, if it is not zero, is stored. -/
theorem get_ok {n : Nat} {m : Sparse S} {A : Fin n → Fin n → S} (h : Square m A) (i j : Fin n) (hd : A i j ≠ 0) :
    m.get i j = .ok (A i j) := by
  obtain ⟨L, h1, h2, h3, h4, h5⟩ := square_rep h
  have h6 := h5 i j
  refine get_entry h1 (by rw [h4]; exact i.2) ?_
  cases he : entry L i j with
  | none => rw [he] at h6; exact absurd h6.symm hd
  | some v => rw [he] at h6; rw [← h6]; rfl

section sweeps

omit [Neg S]
variable [Sub S] {N : Type} {F : Scalars S N}

/-- The new value of unknown `i`, where the stored elements are `L` and the diagonal element is `d`. -/
def newValue (F : Scalars S N) (L : Rows S) {n : Nat} (b : Fin n → S) (omega d : S) (y : Fin n → S) (i : Fin n) : S :=
  omega * (b i - (row L i).foldl (fun v e => if e.1 = i.1 then v else v + e.2 * (vec y).getD e.1 0) 0) / d +
    (F.one - omega) * y i

theorem sweepRow_gen {n : Nat} {m : Sparse S} {L : Rows S} (h1 : m.Rep L) (h3 : Bounded n L) (h4 : L.length = n) (b : Fin n → S)
    (omega d : S) (i : Fin n) (hd : entry L i i = some d) (x : Option (List S)) (u y : Fin n → S) (hx : x.getD (vec u) = vec y) :
    sweepRow F m (vec b) omega x i (vec u) = .ok (vec fun k => if k = i then newValue F L b omega d y i else u k) := by
  have hi : i.1 < L.length := by rw [h4]; exact i.2
  have hr : i.1 < m.sizeRow := by rw [h1.sizeRow]; exact hi
  unfold sweepRow
  rw [hx]
  simp only [hr, decide_true, assert_true, Out.ok_bind, offRowDot_fold h1 (x := vec y) (by rw [vec_length]; exact h3) hi,
    rd_vec b i.2, get_entry h1 hi hd, rd_vec y i.2, wr_vec u i.2, Out.ok.injEq]
  rw [vec_inj]
  funext k
  have : (k.1 = i.1) ↔ (k = i) := Fin.ext_iff.symm
  simp only [this]
  rfl

/-- A sweep from one vector to another, with the new value of each unknown given by `R`. -/
theorem jacobi_body {n : Nat} {B : Option (List S) → Nat → List S → Out (List S)} {R : (Fin n → S) → Fin n → S}
    (hR : ∀ (i : Fin n) (x : Option (List S)) (u y : Fin n → S), x.getD (vec u) = vec y →
      B x i (vec u) = .ok (vec fun k => if k = i then R y i else u k)) (x u : Fin n → S) :
    loop n (B (some (vec x))) (vec u) = .ok (vec (R x)) := by
  obtain ⟨s, h1, h2⟩ := loop_inv (n := n) (s := vec u) (body := B (some (vec x)))
    (fun k s => s = vec fun i : Fin n => if i.1 < k then R x i else u i) (by simp) (by
      rintro k s hk rfl
      have hk' : k < n := hk
      refine ⟨_, hR ⟨k, hk'⟩ (some (vec x)) _ x rfl, ?_⟩
      rw [vec_inj]
      funext i
      by_cases hi : i = ⟨k, hk'⟩
      · subst hi; simp
      · have hi' : i.1 ≠ k := fun h => hi (Fin.ext h)
        have e : (i.1 < k + 1) ↔ (i.1 < k) := by omega
        simp only [hi, if_false, e])
  rw [h1, h2, vec_inj.mpr]
  funext i
  rw [if_pos i.2]

theorem jacobi_gen {n : Nat} {m : Sparse S} (hn : m.sizeRow = n) {b : List S} {omega : S} {R : (Fin n → S) → Fin n → S}
    (hR : ∀ (i : Fin n) (x : Option (List S)) (u y : Fin n → S), x.getD (vec u) = vec y →
      sweepRow F m b omega x i (vec u) = .ok (vec fun k => if k = i then R y i else u k)) (x u : Fin n → S) :
    forwardSweep F m b omega (some (vec x)) (vec u) = .ok (vec (R x)) := by
  unfold forwardSweep
  rw [hn]
  exact jacobi_body hR x u

/-- An in place sweep: the values of smaller unknowns are the new ones. -/
theorem inplace_body {n : Nat} {B : Option (List S) → Nat → List S → Out (List S)} {R : (Fin n → S) → Fin n → S}
    (hR : ∀ (i : Fin n) (x : Option (List S)) (u y : Fin n → S), x.getD (vec u) = vec y →
      B x i (vec u) = .ok (vec fun k => if k = i then R y i else u k)) (x : Fin n → S) :
    ∃ y : Fin n → S, loop n (B none) (vec x) = .ok (vec y) ∧
      ∀ i, y i = R (fun k => if k < i then y k else x k) i := by
  obtain ⟨s, h1, y, h2, h3, h4⟩ := loop_inv (n := n) (s := vec x) (body := B none)
    (fun k s => ∃ y : Fin n → S, s = vec y ∧
      (∀ i : Fin n, i.1 < k → y i = R (fun k => if k < i then y k else x k) i) ∧
      ∀ i : Fin n, k ≤ i.1 → y i = x i) ⟨x, rfl, fun i hi => absurd hi (Nat.not_lt_zero _), fun i _ => rfl⟩ (by
      rintro k s hk ⟨y, rfl, h3, h4⟩
      have hk' : k < n := hk
      refine ⟨_, hR ⟨k, hk'⟩ none y y rfl, _, rfl, ?_, ?_⟩
      · intro i hi
        by_cases hik : i = ⟨k, hk'⟩
        · subst hik
          simp only [if_true]
          refine congrFun (congrArg R (funext fun l => ?_)) _
          by_cases hl : l < ⟨k, hk'⟩
          · rw [if_pos hl, if_neg hl.ne]
          · rw [if_neg hl]
            exact h4 l (by have := not_lt.mp hl; exact this)
        · have hik' : i.1 ≠ k := fun h => hik (Fin.ext h)
          have hlt : i.1 < k := by omega
          simp only [hik, if_false]
          rw [h3 i hlt]
          refine congrFun (congrArg R (funext fun l => ?_)) _
          by_cases hl : l < i
          · have : l ≠ ⟨k, hk'⟩ := by
              rintro rfl
              exact absurd (show k < i.1 from hl) (by omega)
            rw [if_pos hl, if_pos hl, if_neg this]
          · rw [if_neg hl, if_neg hl]
      · intro i hi
        have : i ≠ ⟨k, hk'⟩ := by
          rintro rfl
          simp at hi
        simp only [this, if_false]
        exact h4 i (by omega))
  exact ⟨y, by rw [h1, h2], fun i => h3 i i.2⟩

theorem inplace_gen {n : Nat} {m : Sparse S} (hn : m.sizeRow = n) {b : List S} {omega : S} {R : (Fin n → S) → Fin n → S}
    (hR : ∀ (i : Fin n) (x : Option (List S)) (u y : Fin n → S), x.getD (vec u) = vec y →
      sweepRow F m b omega x i (vec u) = .ok (vec fun k => if k = i then R y i else u k)) (x : Fin n → S) :
    ∃ y : Fin n → S, forwardSweep F m b omega none (vec x) = .ok (vec y) ∧
      ∀ i, y i = R (fun k => if k < i then y k else x k) i := by
  unfold forwardSweep
  rw [hn]
  exact inplace_body hR x

end sweeps

end generic

variable {K : Type} [Field K]

theorem foldl_sum {β : Type} (g : β → K) (l : List β) (z : K) : l.foldl (fun v e => v + g e) z = z + (l.map g).sum := by
  induction l generalizing z with
  | nil => simp
  | cons e l ih => rw [List.foldl_cons, ih, List.map_cons, List.sum_cons, add_assoc]

theorem sum_row {n : Nat} {L : Rows K} {A : Fin n → Fin n → K} (hs : Sorted L) (hb : Bounded n L)
    (hA : ∀ i j : Fin n, (entry L i j).getD 0 = A i j) (i : Fin n) (g : Nat → K → K) (hg : ∀ k, g k 0 = 0) :
    ((row L i).map fun e => g e.1 e.2).sum = ∑ j : Fin n, g j (A i j) := by
  rw [Props.sum_lookup g (hs i) (n := n) (fun e he => hb i e he), Finset.sum_range]
  apply Finset.sum_congr rfl
  intro j _
  rw [← hA i j]
  unfold entry
  cases (row L i).lookup j.1 with
  | none => simp [hg]
  | some v => simp

/-- The products of a row of the matrix with a vector. -/
theorem rowDot_ok {n : Nat} {m : Sparse K} {A : Fin n → Fin n → K} (h : Square m A) (x : Fin n → K) (i : Fin n) :
    m.rowDot (vec x) i = .ok (∑ j, A i j * x j) := by
  obtain ⟨L, h1, h2, h3, h4, h5⟩ := square_rep h
  rw [h1.rowDot (by rw [vec_length]; exact h3) (by rw [h4]; exact i.2)]
  unfold dotL
  rw [foldl_sum (fun e : Nat × K => e.2 * (vec x).getD e.1 0), zero_add,
    sum_row h2 h3 h5 i (fun k a => a * (vec x).getD k 0) (by simp)]
  congr 1
  apply Finset.sum_congr rfl
  intro j _
  congr 1
  simp [vec]

/-- The products of the entries off the diagonal. -/
def off {n : Nat} (A : Fin n → Fin n → K) (x : Fin n → K) (i : Fin n) : K := ∑ j, if j = i then 0 else A i j * x j

theorem off_add {n : Nat} (A : Fin n → Fin n → K) (x : Fin n → K) (i : Fin n) : ∑ j, A i j * x j = off A x i + A i i * x i := by
  unfold off
  have : ∀ j, A i j * x j = (if j = i then 0 else A i j * x j) + (if j = i then A i i * x i else 0) := by
    intro j
    by_cases hj : j = i
    · subst hj; simp
    · simp [hj]
  rw [Finset.sum_congr rfl fun j _ => this j, Finset.sum_add_distrib, Finset.sum_ite_eq', if_pos (Finset.mem_univ i)]

theorem offRowDot_ok {n : Nat} {m : Sparse K} {A : Fin n → Fin n → K} (h : Square m A) (x : Fin n → K) (i : Fin n) :
    offRowDot m (vec x) i = .ok (off A x i) := by
  obtain ⟨L, h1, h2, h3, h4, h5⟩ := square_rep h
  have hi : i.1 < L.length := by rw [h4]; exact i.2
  rw [offRowDot_fold h1 (by rw [vec_length]; exact h3) hi]
  have e : (fun (v : K) (e : Nat × K) => if e.1 = i.1 then v else v + e.2 * (vec x).getD e.1 0) =
      fun v e => v + (if e.1 = i.1 then 0 else e.2 * (vec x).getD e.1 0) := by
    funext v e
    split <;> simp
  rw [e, foldl_sum (fun e : Nat × K => if e.1 = i.1 then 0 else e.2 * (vec x).getD e.1 0), zero_add,
    sum_row h2 h3 h5 i (fun k a => if k = i.1 then 0 else a * (vec x).getD k 0) (by simp)]
  congr 1
  apply Finset.sum_congr rfl
  intro j _
  have : (j.1 = i.1) ↔ (j = i) := Fin.ext_iff.symm
  simp only [this]
  congr 2
  simp [vec]

/-- A diagonal entry that is not stored stops the sweep. -/
theorem get_absent {n : Nat} {m : Sparse K} {A : Fin n → Fin n → K} (h : Square m A) (i j : Fin n)
    (hd : Spec.lookup m i j = .ok none) : m.get i j = .exit 1 := by
  obtain ⟨L, h1, h2, h3, h4, h5⟩ := square_rep h
  have hi : i.1 < L.length := by rw [h4]; exact i.2
  have hr : i.1 < m.sizeRow := by rw [h1.sizeRow]; exact hi
  have h7 : entry L i j = none := by
    have := lookup_ok h1 hi j.1
    rw [hd] at this
    simpa using this.symm
  have h8 : j.1 ∉ keys L[i.1] := by
    rw [← row_of_lt hi, mem_keys_iff]
    intro hne
    exact hne h7
  unfold Sparse.get
  simp only [hr, decide_true, assert_true, Out.ok_bind, h1.contains hi, h8, decide_false]
  rfl

/-- The new value of unknown `i`. -/
def relaxed {n : Nat} (A : Fin n → Fin n → K) (b : Fin n → K) (omega : K) (x : Fin n → K) (i : Fin n) : K :=
  omega * (b i - off A x i) / A i i + (1 - omega) * x i

variable {N : Type} {F : Scalars K N}

theorem sweepRow_ok {n : Nat} {m : Sparse K} {A : Fin n → Fin n → K} (h : Square m A) (hF : F.one = 1) (b : Fin n → K)
    (omega : K) (i : Fin n) (hd : A i i ≠ 0) (x : Option (List K)) (u y : Fin n → K) (hx : x.getD (vec u) = vec y) :
    sweepRow F m (vec b) omega x i (vec u) = .ok (vec fun k => if k = i then relaxed A b omega y i else u k) := by
  have hr : i.1 < m.sizeRow := by rw [h.2.1]; exact i.2
  unfold sweepRow
  rw [hx]
  simp only [hr, decide_true, assert_true, Out.ok_bind, offRowDot_ok h, rd_vec b i.2, get_ok h i i hd, rd_vec y i.2,
    wr_vec u i.2, Out.ok.injEq, hF]
  rw [vec_inj]
  funext k
  have : (k.1 = i.1) ↔ (k = i) := Fin.ext_iff.symm
  simp only [this]
  rfl

/-- A sweep from one vector to another. -/
theorem jacobi_ok {n : Nat} {m : Sparse K} {A : Fin n → Fin n → K} (h : Square m A) (hF : F.one = 1) (b : Fin n → K)
    (omega : K) (hd : ∀ i, A i i ≠ 0) (x u : Fin n → K) :
    forwardSweep F m (vec b) omega (some (vec x)) (vec u) = .ok (vec (relaxed A b omega x)) :=
  jacobi_gen h.2.1 (fun i x u y => sweepRow_ok h hF b omega i (hd i) x u y) x u

/-- An in place sweep: the values of smaller unknowns are the new ones. -/
theorem inplace_ok {n : Nat} {m : Sparse K} {A : Fin n → Fin n → K} (h : Square m A) (hF : F.one = 1) (b : Fin n → K)
    (omega : K) (hd : ∀ i, A i i ≠ 0) (x : Fin n → K) :
    ∃ y : Fin n → K, forwardSweep F m (vec b) omega none (vec x) = .ok (vec y) ∧
      ∀ i, y i = relaxed A b omega (fun k => if k < i then y k else x k) i :=
  inplace_gen h.2.1 (fun i x u y => sweepRow_ok h hF b omega i (hd i) x u y) x

end Disa.Iterative
