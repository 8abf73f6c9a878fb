import Verif.Props.SweepFloat
import Verif.Props.Layered

/-!
# What the iterates depend on
-/

namespace Disa.Props

open Disa Spec Dense Num Sparse Iterative

/-- `l` can be reached from `i` through at most `k` stored elements: from a row to the columns stored in it. -/
inductive Near {S : Type} (m : Sparse S) : Nat → Nat → Nat → Prop
  | self {k i : Nat} : Near m k i i
  | next {k i j l : Nat} {v : S} : lookup m i j = .ok (some v) → Near m k j l → Near m (k + 1) i l

section near

variable {S : Type} {m : Sparse S}

theorem Near.mono {k k' i l : Nat} (h : Near m k i l) (hk : k ≤ k') : Near m k' i l := by
  induction h generalizing k' with
  | self => exact .self
  | next h1 _ ih =>
    obtain ⟨q, rfl⟩ : ∃ q, k' = q + 1 := ⟨k' - 1, by omega⟩
    exact .next h1 (ih (by omega))

theorem Near.snoc {k i l p : Nat} {v : S} (h : Near m k i l) (hl : lookup m l p = .ok (some v)) : Near m (k + 1) i p := by
  induction h with
  | self => exact .next hl .self
  | next h1 _ ih => exact .next h1 (ih hl)

end near

/-- Both matrices have the same elements stored in row `i`. -/
def SameRow {S : Type} (n : Nat) (m m' : Sparse S) (i : Nat) : Prop := ∀ j < n, lookup m i j = lookup m' i j

variable {S N : Type} [Zero S] [Add S] [Sub S] [Mul S] [Div S] [Neg S]

/-- A system the iterations accept: a matrix of `n` rows and columns with its diagonal stored. -/
def System (n : Nat) (m : Sparse S) : Prop :=
  Built false m ∧ m.sizeRow = n ∧ m.colSize = n ∧ ∀ i < n, ∃ d, lookup m i i = .ok (some d)

omit [Sub S] in
theorem system_rep {n : Nat} {m : Sparse S} (h : System n m) :
    ∃ (L : Rows S) (D : Fin n → S), m.Rep L ∧ Sorted L ∧ Bounded n L ∧ L.length = n ∧ (∀ i : Fin n, entry L i i = some (D i)) ∧
      ∀ i < n, ∀ j, lookup m i j = .ok (entry L i j) := by
  obtain ⟨h1, h2, h3, h4⟩ := h
  obtain ⟨L, h5, h6, -, h8⟩ := inv_built h1
  have hl : L.length = n := by rw [← h5.sizeRow]; exact h2
  have hlook : ∀ i < n, ∀ j, lookup m i j = .ok (entry L i j) := fun i hi j => lookup_ok h5 (by omega) j
  choose D hD using fun i : Fin n => h4 i i.2
  exact ⟨L, D, h5, h6, by rw [← h3]; exact h8 rfl, hl,
    fun i => Out.ok.inj ((hlook i i.2 i).symm.trans (hD i)), hlook⟩

omit [Zero S] [Add S] [Sub S] [Mul S] [Div S] [Neg S] in
/-- Sorted rows are determined by what is found in them. -/
theorem row_eq_of_lookup {r r' : List (Nat × S)} (h : (keys r).Pairwise (· < ·)) (h' : (keys r').Pairwise (· < ·))
    (he : ∀ j, r.lookup j = r'.lookup j) : r = r' := by
  have hp : ∀ {q : List (Nat × S)}, (keys q).Pairwise (· < ·) → q.Pairwise (fun a b => a.1 < b.1) := fun hq =>
    List.pairwise_map.mp hq
  have hmem : ∀ a, a ∈ r ↔ a ∈ r' := fun a => by
    rw [← lookup_eq_some (j := a.1) (v := a.2) h, ← lookup_eq_some (j := a.1) (v := a.2) h', he]
  have hnd : ∀ {q : List (Nat × S)}, q.Pairwise (fun a b => a.1 < b.1) → q.Nodup := fun hq =>
    hq.imp fun hab e => by rw [e] at hab; exact lt_irrefl _ hab
  refine List.Perm.eq_of_pairwise (le := fun a b => a.1 < b.1) (fun a b _ _ h1 h2 => absurd h1 (by omega)) (hp h) (hp h') ?_
  exact (List.perm_ext_iff_of_nodup (hnd (hp h)) (hnd (hp h'))).mpr hmem

omit [Neg S] in
/-- The new value of an unknown depends on its row, its right-hand side and the values in the columns of the row. -/
theorem newValue_congr {F : Scalars S N} {L L' : Rows S} {n : Nat} {b b' : Fin n → S} {omega d d' : S} {y y' : Fin n → S} {i : Fin n}
    (hr : row L i = row L' i) (hb : b i = b' i) (hd : d = d') (hi : y i = y' i) (hbd : Bounded n L)
    (hy : ∀ j : Fin n, j ≠ i → (∃ v, (j.1, v) ∈ row L i) → y j = y' j) :
    newValue F L b omega d y i = newValue F L' b' omega d' y' i := by
  unfold newValue
  rw [← hr, hb, hd, hi]
  have : ∀ (l : List (Nat × S)) (a : S), (∀ e ∈ l, e ∈ row L i) →
      l.foldl (fun v e => if e.1 = i.1 then v else v + e.2 * (vec y).getD e.1 0) a =
        l.foldl (fun v e => if e.1 = i.1 then v else v + e.2 * (vec y').getD e.1 0) a := by
    intro l
    induction l with
    | nil => intro a _; rfl
    | cons e l ih =>
      intro a hl
      have he := hl e (by simp)
      have hlt : e.1 < n := hbd i e he
      have hg : ∀ z : Fin n → S, (vec z).getD e.1 0 = z ⟨e.1, hlt⟩ := fun z => by
        simp [vec, List.getD_eq_getElem?_getD, List.getElem?_ofFn, hlt]
      simp only [List.foldl_cons]
      rw [ih _ fun q hq => hl q (by simp [hq])]
      congr 1
      by_cases hei : e.1 = i.1
      · rw [if_pos hei, if_pos hei]
      · rw [if_neg hei, if_neg hei, hg, hg, hy ⟨e.1, hlt⟩ (fun h => hei (by rw [← h])) ⟨e.2, he⟩]
  rw [this _ _ fun e he => he]

/-- One iteration on two systems, and what the new values depend on. -/
theorem step_local (F : Scalars S N) (k : Method) (s s' : FixedPoint S) {n : Nat} {m m' : Sparse S} (hm : System n m) (hm' : System n m')
    (b b' x x' : Fin n → S) (w w' : List S) (hw : k = .jacobi → w.length = n) (hw' : k = .jacobi → w'.length = n) :
    ∃ (y y' : Fin n → S) (v v' : List S), step F k s m (vec b) (vec x, w) = .ok (vec y, v) ∧
      step F k s' m' (vec b') (vec x', w') = .ok (vec y', v') ∧ (k = .jacobi → v.length = n) ∧ (k = .jacobi → v'.length = n) ∧
      ∀ i : Fin n, SameRow n m m' i → b i = b' i → x i = x' i →
        (∀ (j : Fin n) (e : S), j ≠ i → lookup m i j = .ok (some e) →
          if k ≠ .jacobi ∧ j < i then y j = y' j else x j = x' j) → y i = y' i := by
  obtain ⟨L, D, h1, h2, h3, h4, h5, h6⟩ := system_rep hm
  obtain ⟨L', D', h1', h2', h3', h4', h5', h6'⟩ := system_rep hm'
  obtain ⟨y, v, e1, e2, e3⟩ := step_gen F k s h1 h3 h4 D h5 b x w hw
  obtain ⟨y', v', e1', e2', e3'⟩ := step_gen F k s' h1' h3' h4' D' h5' b' x' w' hw'
  refine ⟨y, y', v, v', e1, e1', e2, e2', fun i hr hb hx hj => ?_⟩
  have hrow : row L i = row L' i := by
    refine row_eq_of_lookup (h2 i) (h2' i) fun j => ?_
    by_cases hjn : j < n
    · have := hr j hjn
      rw [h6 i i.2, h6' i i.2] at this
      exact Out.ok.inj this
    · have hno : ∀ {M : Rows S}, Bounded n M → (row M i).lookup j = none := fun hM => by
        rw [lookup_eq_none]
        intro hk
        obtain ⟨e, he, hej⟩ := List.mem_map.mp hk
        exact hjn (hej ▸ hM i e he)
      rw [hno h3, hno h3']
  have hD : D i = D' i := by
    have a1 := h5 i
    have a2 := h5' i
    unfold entry at a1 a2
    rw [hrow] at a1
    exact Option.some.inj (a1.symm.trans a2)
  rw [e3 i, e3' i]
  refine newValue_congr hrow hb hD (by simpa using hx) h3 fun j hji hst => ?_
  obtain ⟨e, he⟩ := hst
  have := hj j e hji (by rw [h6 i i.2]; unfold entry; rw [(lookup_eq_some (h2 i)).mpr he])
  by_cases hc : k ≠ .jacobi ∧ j < i
  · rw [if_pos hc] at this
    simpa only [if_pos hc] using this
  · rw [if_neg hc] at this
    simpa only [if_neg hc] using this

/-- C189: unknowns whose equations do not involve others.  Whatever the other equations are, and whatever the scalars are, the
iterates of these unknowns are the same. -/
theorem c189_closed (F : Scalars S N) (k : Method) (s s' : FixedPoint S) {n : Nat} {m m' : Sparse S} (hm : System n m)
    (hm' : System n m') (P : Fin n → Prop) (hP : ∀ (i j : Fin n) (e : S), P i → lookup m i j = .ok (some e) → P j)
    (hr : ∀ i, P i → SameRow n m m' i) (b b' x x' : Fin n → S) (hb : ∀ i, P i → b i = b' i) (hx : ∀ i, P i → x i = x' i)
    (w w' : List S) (hw : k = .jacobi → w.length = n) (hw' : k = .jacobi → w'.length = n) (t : Nat) :
    ∃ (y y' : Fin n → S) (v v' : List S), times (step F k s m (vec b)) t (vec x, w) = .ok (vec y, v) ∧
      times (step F k s' m' (vec b')) t (vec x', w') = .ok (vec y', v') ∧ ∀ i, P i → y i = y' i := by
  induction t generalizing x x' w w' with
  | zero => exact ⟨x, x', w, w', rfl, rfl, hx⟩
  | succ t ih =>
    obtain ⟨y, y', v, v', e1, e1', e2, e2', e3⟩ := step_local F k s s' hm hm' b b' x x' w w' hw hw'
    have hy : ∀ (q : Nat) (i : Fin n), i.1 = q → P i → y i = y' i := by
      intro q
      induction q using Nat.strong_induction_on with
      | _ q ihq =>
        intro i hiq hi
        refine e3 i (hr i hi) (hb i hi) (hx i hi) fun j e _ hj => ?_
        have hPj := hP i j e hi hj
        by_cases hc : k ≠ .jacobi ∧ j < i
        · rw [if_pos hc]
          exact ihq j.1 (by have := hc.2; rw [Fin.lt_def] at this; omega) j rfl hPj
        · rw [if_neg hc]
          exact hx j hPj
    obtain ⟨z, z', u, u', g1, g2, g3⟩ := ih y y' (fun i hi => hy i.1 i rfl hi) v v' e2 e2'
    refine ⟨z, z', u, u', ?_, ?_, g3⟩
    · show step F k s m (vec b) (vec x, w) >>= times (step F k s m (vec b)) t = _
      rw [e1, Out.ok_bind, g1]
    · show step F k s' m' (vec b') (vec x', w') >>= times (step F k s' m' (vec b')) t = _
      rw [e1', Out.ok_bind, g2]

/-- C189: after `t` Jacobi iterations an unknown depends on the equations within distance `t - 1` and on the start values within
distance `t` only. -/
theorem c189_cone (F : Scalars S N) (s s' : FixedPoint S) {n : Nat} {m m' : Sparse S} (hm : System n m) (hm' : System n m')
    (b b' x x' : Fin n → S) (w w' : List S) (hw : w.length = n) (hw' : w'.length = n) (t : Nat) :
    ∃ (y y' : Fin n → S) (v v' : List S), times (step F .jacobi s m (vec b)) t (vec x, w) = .ok (vec y, v) ∧
      times (step F .jacobi s' m' (vec b')) t (vec x', w') = .ok (vec y', v') ∧
      ∀ i : Fin n, (∀ j : Fin n, 0 < t → Near m (t - 1) i j → SameRow n m m' j ∧ b j = b' j) →
        (∀ j : Fin n, Near m t i j → x j = x' j) → y i = y' i := by
  induction t generalizing x x' w w' with
  | zero => exact ⟨x, x', w, w', rfl, rfl, fun i _ h => h i .self⟩
  | succ t ih =>
    obtain ⟨y, y', v, v', e1, e1', e2, e2', e3⟩ :=
      step_local F .jacobi s s' hm hm' b b' x x' w w' (fun _ => hw) (fun _ => hw')
    obtain ⟨z, z', u, u', g1, g2, g3⟩ := ih y y' v v' (e2 rfl) (e2' rfl)
    refine ⟨z, z', u, u', ?_, ?_, fun i hi hx => ?_⟩
    · show step F .jacobi s m (vec b) (vec x, w) >>= times (step F .jacobi s m (vec b)) t = _
      rw [e1, Out.ok_bind, g1]
    · show step F .jacobi s' m' (vec b') (vec x', w') >>= times (step F .jacobi s' m' (vec b')) t = _
      rw [e1', Out.ok_bind, g2]
    · refine g3 i (fun j ht hj => hi j (by omega) (hj.mono (by omega))) fun j hj => ?_
      obtain ⟨a1, a2⟩ := hi j (by omega) (by simpa using hj)
      refine e3 j a1 a2 (hx j (hj.mono (by omega))) fun p e _ hp => ?_
      rw [if_neg (by simp)]
      exact hx p (hj.snoc hp)

/-- A line of three unknowns in double precision. -/
theorem line3_system : System 3 (line3 (fin 2) (fin (-1)) (fin (-1)) : Sparse (Num binary64)) := by
  refine ⟨Built.ofLists (nz := [0, 2, 5, 7]) (ix := [0, 1, 0, 1, 2, 1, 2])
    (vs := [fin 2, fin (-1), fin (-1), fin 2, fin (-1), fin (-1), fin 2]) (c := 3)
    (by decide) (by decide) (by decide +kernel), rfl, rfl, fun i hi => ?_⟩
  exact ⟨fin 2, by interval_cases i <;> rfl⟩

/-- C189: the distances are least, and only Jacobi obeys them.  The right-hand side of the first equation reaches the third unknown
with the third Jacobi iteration, and with the first Gauss-Seidel iteration. -/
theorem c189_sharp (s : FixedPoint (Num binary64)) :
    (let m : Sparse (Num binary64) := line3 (fin 2) (fin (-1)) (fin (-1))
     let F := floats binary64 id
     let z : List (Num binary64) := [fin 0, fin 0, fin 0]
     let b : List (Num binary64) := [fin 8, fin 0, fin 0]
     Near m 2 2 0 ∧ ¬ Near m 1 2 0 ∧
     (∀ t, ∃ w, times (step F .jacobi s m z) t (z, z) = .ok (z, w)) ∧
     (∃ w, times (step F .jacobi s m b) 2 (z, z) = .ok ([fin 4, fin 2, fin 0], w)) ∧
     (∃ w, times (step F .jacobi s m b) 3 (z, z) = .ok ([fin 5, fin 2, fin 1], w)) ∧
     step F .gaussSeidel s m b (z, z) = .ok ([fin 4, fin 2, fin 1], z)) := by
  refine ⟨?_, ?_, ?_, ?_, ?_, ?_⟩
  · exact .next (j := 1) (v := fin (-1)) rfl (.next (j := 0) (v := fin (-1)) rfl .self)
  · intro h
    cases h with
    | next h1 h2 =>
      cases h2 with
      | self =>
        have : lookup (line3 (fin 2) (fin (-1)) (fin (-1)) : Sparse (Num binary64)) 2 0 = .ok none := by decide +kernel
        cases this.symm.trans h1
  · intro t
    have h1 : step (floats binary64 id) .jacobi s (line3 (fin 2) (fin (-1)) (fin (-1)) : Sparse (Num binary64)) [fin 0, fin 0, fin 0]
        ([fin 0, fin 0, fin 0], [fin 0, fin 0, fin 0]) = .ok ([fin 0, fin 0, fin 0], [fin 0, fin 0, fin 0]) := by
      have : step (floats binary64 id) .jacobi ⟨⟨0, 0, fin 0⟩, [], fin 0⟩ (line3 (fin 2) (fin (-1)) (fin (-1)) : Sparse (Num binary64))
        [fin 0, fin 0, fin 0] ([fin 0, fin 0, fin 0], [fin 0, fin 0, fin 0]) = .ok ([fin 0, fin 0, fin 0], [fin 0, fin 0, fin 0]) := by
        decide +kernel
      exact this
    refine ⟨[fin 0, fin 0, fin 0], ?_⟩
    induction t with
    | zero => rfl
    | succ t ih =>
      show step _ _ _ _ _ _ >>= times _ t = _
      rw [h1, Out.ok_bind]
      exact ih
  · refine ⟨[fin 4, fin 0, fin 0], ?_⟩
    have : times (step (floats binary64 id) .jacobi ⟨⟨0, 0, fin 0⟩, [], fin 0⟩
      (line3 (fin 2) (fin (-1)) (fin (-1)) : Sparse (Num binary64)) [fin 8, fin 0, fin 0]) 2
      ([fin 0, fin 0, fin 0], [fin 0, fin 0, fin 0]) = .ok ([fin 4, fin 2, fin 0], [fin 4, fin 0, fin 0]) := by decide +kernel
    exact this
  · refine ⟨[fin 4, fin 2, fin 0], ?_⟩
    have : times (step (floats binary64 id) .jacobi ⟨⟨0, 0, fin 0⟩, [], fin 0⟩
      (line3 (fin 2) (fin (-1)) (fin (-1)) : Sparse (Num binary64)) [fin 8, fin 0, fin 0]) 3
      ([fin 0, fin 0, fin 0], [fin 0, fin 0, fin 0]) = .ok ([fin 5, fin 2, fin 1], [fin 4, fin 2, fin 0]) := by decide +kernel
    exact this
  · have : step (floats binary64 id) .gaussSeidel ⟨⟨0, 0, fin 0⟩, [], fin 0⟩
      (line3 (fin 2) (fin (-1)) (fin (-1)) : Sparse (Num binary64)) [fin 8, fin 0, fin 0]
      ([fin 0, fin 0, fin 0], [fin 0, fin 0, fin 0]) = .ok ([fin 4, fin 2, fin 1], [fin 0, fin 0, fin 0]) := by decide +kernel
    exact this

/-- The hypotheses hold, and an unknown that is not a number does not spread to an equation without it: the first equation has only
its own unknown. -/
example (k : Method) (s : FixedPoint (Num binary64)) (t : Nat) :
    ∃ (y y' : Fin 2 → Num binary64) (v v' : List (Num binary64)),
      times (step (floats binary64 id) k s ⟨[0, 1, 3], [0, 0, 1], [fin 2, fin 1, fin 3], 2⟩ (vec fun _ : Fin 2 => fin 1)) t
        (vec fun _ : Fin 2 => fin 0, [fin 0, fin 0]) = .ok (vec y, v) ∧
      times (step (floats binary64 id) k s ⟨[0, 1, 3], [0, 0, 1], [fin 2, nan, fin 3], 2⟩ (vec fun _ : Fin 2 => fin 1)) t
        (vec fun _ : Fin 2 => fin 0, [fin 0, fin 0]) = .ok (vec y', v') ∧ y 0 = y' 0 := by
  have hs : ∀ a : Num binary64, System 2 (⟨[0, 1, 3], [0, 0, 1], [fin 2, a, fin 3], 2⟩ : Sparse (Num binary64)) := fun a => by
    refine ⟨Built.ofLists (nz := [0, 1, 3]) (ix := [0, 0, 1]) (vs := [fin 2, a, fin 3]) (c := 2)
      (by decide) (by decide) (by simp [Sparse.ofLists, loop, Sparse.listBody, rd, slice, overwrite, assert]), rfl, rfl, fun i hi => ?_⟩
    interval_cases i
    · exact ⟨fin 2, rfl⟩
    · exact ⟨fin 3, rfl⟩
  obtain ⟨y, y', v, v', h1, h2, h3⟩ := c189_closed (floats binary64 id) k s s (hs (fin 1)) (hs nan) (fun i => i = 0)
    (by
      rintro i j e rfl hj
      fin_cases j
      · rfl
      · cases hj)
    (by
      rintro i rfl j hj
      interval_cases j <;> rfl)
    (fun _ => fin 1) (fun _ => fin 1) (fun _ => fin 0) (fun _ => fin 0) (fun _ _ => rfl) (fun _ _ => rfl)
    [fin 0, fin 0] [fin 0, fin 0] (fun _ => rfl) (fun _ => rfl) t
  exact ⟨y, y', v, v', h1, h2, h3 0 rfl⟩

end Disa.Props
