import Verif.Sparse.Ops

/-!
# Addition and subtraction on rows
-/

namespace Disa
namespace Sparse

variable {α : Type} {m : Sparse α} {L : Rows α}

/-- Merge of two sorted rows: `f` joins elements in the same column, `g` is applied to elements only in the second. -/
def mergeL (f : α → α → α) (g : α → α) : List (Nat × α) → List (Nat × α) → List (Nat × α)
  | R, [] => R
  | [], y :: B => (y.1, g y.2) :: mergeL f g [] B
  | x :: R, y :: B =>
    if x.1 > y.1 then (y.1, g y.2) :: mergeL f g (x :: R) B
    else if x.1 < y.1 then x :: mergeL f g R (y :: B)
    else (x.1, f x.2 y.2) :: mergeL f g R B
termination_by R B => R.length + B.length

theorem keys_mergeL (f : α → α → α) (g : α → α) (R B : List (Nat × α)) (k : Nat) :
    k ∈ keys (mergeL f g R B) ↔ k ∈ keys R ∨ k ∈ keys B := by
  fun_induction mergeL f g R B with
  | case1 R => simp
  | case2 y B ih => simp only [keys, List.map_cons, List.mem_cons] at ih ⊢; rw [ih]; simp
  | case3 x R y B h ih => simp only [keys, List.map_cons, List.mem_cons] at ih ⊢; rw [ih]; tauto
  | case4 x R y B h1 h2 ih => simp only [keys, List.map_cons, List.mem_cons] at ih ⊢; rw [ih]; tauto
  | case5 x R y B h1 h2 ih =>
    have : x.1 = y.1 := by omega
    simp only [keys, List.map_cons, List.mem_cons] at ih ⊢; rw [ih, this]; tauto

theorem sorted_mergeL (f : α → α → α) (g : α → α) (R B : List (Nat × α)) (hR : (keys R).Pairwise (· < ·))
    (hB : (keys B).Pairwise (· < ·)) : (keys (mergeL f g R B)).Pairwise (· < ·) := by
  have hmem := keys_mergeL f g
  fun_induction mergeL f g R B with
  | case1 R => exact hR
  | case2 y B ih =>
    simp only [keys, List.map_cons, List.pairwise_cons] at hB ⊢
    refine ⟨?_, ih hR hB.2⟩
    intro k hk
    rcases (hmem [] B k).mp hk with h | h
    · simp at h
    · exact hB.1 k h
  | case3 x R y B h ih =>
    have hR' := hR
    simp only [keys, List.map_cons, List.pairwise_cons] at hB hR ⊢
    refine ⟨?_, ih hR' hB.2⟩
    intro k hk
    rcases (hmem _ B k).mp hk with h' | h'
    · simp only [keys, List.map_cons, List.mem_cons] at h'
      rcases h' with rfl | h'
      · exact h
      · have := hR.1 k h'; omega
    · exact hB.1 k h'
  | case4 x R y B h1 h2 ih =>
    have hB' := hB
    simp only [keys, List.map_cons, List.pairwise_cons] at hB hR ⊢
    refine ⟨?_, ih hR.2 hB'⟩
    intro k hk
    rcases (hmem R _ k).mp hk with h' | h'
    · exact hR.1 k h'
    · simp only [keys, List.map_cons, List.mem_cons] at h'
      rcases h' with rfl | h'
      · exact h2
      · have := hB.1 k h'; omega
  | case5 x R y B h1 h2 ih =>
    simp only [keys, List.map_cons, List.pairwise_cons] at hB hR ⊢
    refine ⟨?_, ih hR.2 hB.2⟩
    intro k hk
    rcases (hmem R B k).mp hk with h' | h'
    · exact hR.1 k h'
    · have := hB.1 k h'; omega

/-- Joining two optional elements. -/
def joinOpt (f : α → α → α) (g : α → α) : Option α → Option α → Option α
  | some a, some b => some (f a b)
  | some a, none => some a
  | none, some b => some (g b)
  | none, none => none

theorem lookup_cons' (x : Nat × α) (r : List (Nat × α)) (k : Nat) :
    (x :: r).lookup k = if k = x.1 then some x.2 else r.lookup k := by
  obtain ⟨a, b⟩ := x
  rw [List.lookup_cons]
  by_cases h : k = a
  · simp [h]
  · have : (k == a) = false := by simpa using h
    simp [this, h]

theorem lookup_mergeL (f : α → α → α) (g : α → α) (R B : List (Nat × α)) (hR : (keys R).Pairwise (· < ·))
    (hB : (keys B).Pairwise (· < ·)) (k : Nat) :
    (mergeL f g R B).lookup k = joinOpt f g (R.lookup k) (B.lookup k) := by
  have none_of : ∀ (r : List (Nat × α)) (a : Nat), (∀ b ∈ keys r, a < b) → r.lookup a = none := by
    intro r a h
    rw [lookup_eq_none]
    intro ha
    have := h a ha
    omega
  fun_induction mergeL f g R B with
  | case1 R => simp only [List.lookup_nil]; cases R.lookup k <;> rfl
  | case2 y B ih =>
    simp only [keys, List.map_cons, List.pairwise_cons] at hB
    rw [lookup_cons', lookup_cons', ih hR hB.2]
    by_cases h : k = y.1
    · simp [h, joinOpt]
    · simp [h]
  | case3 x R y B h ih =>
    have hR' := hR
    simp only [keys, List.map_cons, List.pairwise_cons] at hB hR
    rw [lookup_cons', lookup_cons' y, ih hR' hB.2]
    by_cases hk : k = y.1
    · have : (x :: R).lookup k = none := none_of _ _ (by
        intro b hb
        simp only [keys, List.map_cons, List.mem_cons] at hb
        rcases hb with rfl | hb
        · omega
        · have := hR.1 b hb; omega)
      simp [hk, joinOpt]
      rw [hk] at this
      rw [this]
    · simp [hk]
  | case4 x R y B h1 h2 ih =>
    have hB' := hB
    simp only [keys, List.map_cons, List.pairwise_cons] at hB hR
    rw [lookup_cons', lookup_cons' x, ih hR.2 hB']
    by_cases hk : k = x.1
    · have : (y :: B).lookup k = none := none_of _ _ (by
        intro b hb
        simp only [keys, List.map_cons, List.mem_cons] at hb
        rcases hb with rfl | hb
        · omega
        · have := hB.1 b hb; omega)
      rw [hk] at this
      simp [hk, this, joinOpt]
    · simp [hk]
  | case5 x R y B h1 h2 ih =>
    simp only [keys, List.map_cons, List.pairwise_cons] at hB hR
    have hxy : x.1 = y.1 := by omega
    rw [lookup_cons', lookup_cons' x, lookup_cons' y, ih hR.2 hB.2, hxy]
    by_cases hk : k = y.1
    · simp [hk, joinOpt]
    · simp [hk]

theorem set_row_self {β : Type} (L : List (List β)) {i : Nat} (hi : i < L.length) : L.set i (row L i) = L := by
  rw [row_of_lt hi]; exact List.set_getElem_self _

theorem getElem_append_cons {β : Type} (D : List β) (x : β) (R : List β) (h : D.length < (D ++ x :: R).length) :
    (D ++ x :: R)[D.length] = x := by simp

/-- The merging loop on one row. -/
theorem mergeLoop_ok [Zero α] [Add α] [Neg α] (isAdd : Bool) {o : Sparse α} {M : Rows α} (ho : o.Rep M)
    (hMs : Sorted M) {i : Nat} (hiM : i < M.length) (fuel : Nat) :
    ∀ {m : Sparse α} {L : Rows α} (D R DB RB : List (Nat × α)), m.Rep L → Sorted L → i < L.length → row L i = D ++ R →
      row M i = DB ++ RB → (∀ x ∈ D, ∀ y ∈ RB, x.1 < y.1) → (∀ y ∈ RB, y.1 < sizeMax) →
      R.length + RB.length < fuel →
      ∃ m', mergeLoop isAdd (some o) i fuel (m, (i, psum L i + D.length), (i, psum M i + DB.length)) = .ok m' ∧
        m'.Rep (L.set i (D ++ mergeL (fun a b => a + signed isAdd b) (signed isAdd) R RB)) ∧
        ((∀ y ∈ RB, y.1 < m.colSize) → m'.colSize = m.colSize) := by
  induction fuel with
  | zero => intro m L D R DB RB _ _ _ _ _ _ _ h; omega
  | succ fuel ih =>
    intro m L D R DB RB hm hs hi hrow hrowM hlt hb hf
    have hpM := psum_succ M hiM
    have hMl : M[i].length = DB.length + RB.length := by rw [← row_of_lt hiM, hrowM, List.length_append]
    have hpL := psum_succ L hi
    have hLl : L[i].length = D.length + R.length := by rw [← row_of_lt hi, hrow, List.length_append]
    unfold mergeLoop
    simp only [operand, Option.getD_some, ho.rowEnd hiM, Out.ok_bind]
    cases RB with
    | nil =>
      have he : (((i, psum M i + DB.length) : Iter) != (i, psum M (i + 1))) = false := by
        simp at hMl ⊢; omega
      rw [if_neg (by rw [he]; simp)]
      refine ⟨m, rfl, ?_, fun _ => rfl⟩
      simp only [mergeL]
      rw [← hrow, set_row_self L hi]
      exact hm
    | cons y B =>
      have he : (((i, psum M i + DB.length) : Iter) != (i, psum M (i + 1))) = true := by
        simp at hMl ⊢; omega
      rw [if_pos he]
      have hdb : DB.length < M[i].length := by rw [hMl]; simp
      have hMg : M[i][DB.length] = y := by
        have : M[i] = DB ++ y :: B := by rw [← row_of_lt hiM, hrowM]
        simp [this]
      have hcq := ho.colAt (a := i) hiM hdb
      have hvq := ho.valAt (a := i) hiM hdb
      rw [hMg] at hcq hvq
      have hys := hb y (by simp)
      have hDy : ∀ x ∈ D, x.1 < y.1 := fun x hx => hlt x hx y (by simp)
      have hsr := hs i
      rw [hrow] at hsr
      have hsM := hMs i
      rw [hrowM] at hsM
      have hyB : ∀ z ∈ B, y.1 < z.1 := by
        intro z hz
        simp only [keys, List.map_append, List.map_cons, List.pairwise_append, List.pairwise_cons] at hsM
        exact hsM.2.1.1 z.1 (List.mem_map_of_mem (f := (·.1)) hz)
      -- the insertion case
      have insCase : (∀ x ∈ R, y.1 < x.1) → ∃ m1,
          m.insert i y.1 (signed isAdd y.2) = .ok (m1, (i, psum L i + D.length), true) ∧
          (y.1 < m.colSize → m1.colSize = m.colSize) ∧ Sorted (L.set i ((D ++ [(y.1, signed isAdd y.2)]) ++ R)) ∧
          m1.Rep (L.set i ((D ++ [(y.1, signed isAdd y.2)]) ++ R)) := by
        intro hR
        have hni : y.1 ∉ keys (row L i) := by
          rw [hrow]
          simp only [keys, List.map_append, List.mem_append, List.mem_map, not_or, not_exists, not_and]
          constructor
          · intro x hx h; have := hDy x hx; omega
          · intro x hx h; have := hR x hx; omega
        have hsm := hm.small
        obtain ⟨m1, b, h1, h2, h3, h4⟩ := hm.insert hs (i := i) (j := y.1) (by omega) hys (signed isAdd y.2)
        have hb' : b = true := h4.mpr hni
        have hrows : insRows i y.1 (signed isAdd y.2) L = L.set i ((D ++ [(y.1, signed isAdd y.2)]) ++ R) := by
          unfold insRows
          rw [if_neg hni, pad_eq L (by omega), hrow, insRow_eq hDy hR]
          simp
        have hpos : pos y.1 (row L i) = D.length := by
          rw [hrow, pos_eq, List.takeWhile_append_of_pos (by simpa using hDy)]
          cases R with
          | nil => simp
          | cons x R =>
            have := hR x (by simp)
            rw [List.takeWhile_cons_of_neg (by simp; omega)]
            simp
        rw [psum_pad, hpos, hb'] at h1
        have hso := sorted_insRows hs i y.1 (signed isAdd y.2)
        rw [hrows] at h2 hso
        exact ⟨m1, h1, fun _ => by omega, hso, h2⟩
      have contIns : (∀ x ∈ R, y.1 < x.1) → ∀ m1, (y.1 < m.colSize → m1.colSize = m.colSize) →
          Sorted (L.set i ((D ++ [(y.1, signed isAdd y.2)]) ++ R)) →
          m1.Rep (L.set i ((D ++ [(y.1, signed isAdd y.2)]) ++ R)) →
          ∃ m', mergeLoop isAdd (some o) i fuel (m1, (i, psum L i + D.length + 1), (i, psum M i + DB.length + 1)) = .ok m' ∧
            m'.Rep (L.set i (D ++ (y.1, signed isAdd y.2) :: mergeL (fun a b => a + signed isAdd b) (signed isAdd) R B)) ∧
            ((∀ z ∈ y :: B, z.1 < m.colSize) → m'.colSize = m.colSize) := by
        intro hR m1 hc hso hrep
        have hi' : i < (L.set i ((D ++ [(y.1, signed isAdd y.2)]) ++ R)).length := by simpa using hi
        obtain ⟨m', h5, h6, h7⟩ := ih (D ++ [(y.1, signed isAdd y.2)]) R (DB ++ [y]) B hrep hso hi'
          (by rw [row_set hi, if_pos rfl]) (by rw [hrowM]; simp)
          (by
            intro x hx z hz
            rcases List.mem_append.mp hx with hx | hx
            · exact hlt x hx z (by simp [hz])
            · simp only [List.mem_singleton] at hx; subst hx; exact hyB z hz)
          (by intro z hz; exact hb z (by simp [hz])) (by simp at hf ⊢; omega)
        refine ⟨m', ?_, ?_, fun hall => by
          have hc' := hc (hall y (by simp))
          rw [h7 (fun z hz => by rw [hc']; exact hall z (by simp [hz])), hc']⟩
        · rw [← h5, psum_set L hi, if_pos (Nat.le_refl i)]
          simp [Nat.add_assoc]
        · rw [List.set_set] at h6
          simpa using h6
      unfold mergeStep
      simp only [operand, Option.getD_some, hm.rowEnd hi, Out.ok_bind, hcq, hvq]
      cases R with
      | nil =>
        have hend : (((i, psum L i + D.length) : Iter) == (i, psum L (i + 1))) = true := by
          simp at hLl ⊢; omega
        obtain ⟨m1, h1, h2, h3, h4⟩ := insCase (by simp)
        simp only [hend, if_true, Out.pure_eq, Out.ok_bind, Bool.true_or, h1]
        obtain ⟨m', h5, h6, h7⟩ := contIns (by simp) m1 h2 h3 h4
        refine ⟨m', h5, ?_, h7⟩
        rw [mergeL]
        exact h6
      | cons x R =>
        have hend : (((i, psum L i + D.length) : Iter) == (i, psum L (i + 1))) = false := by
          simp at hLl ⊢; omega
        have hd : D.length < L[i].length := by rw [hLl]; simp
        have hLg : L[i][D.length] = x := by
          have : L[i] = D ++ x :: R := by rw [← row_of_lt hi, hrow]
          simp [this]
        have hcp := hm.colAt (a := i) hi hd
        have hvp := hm.valAt (a := i) hi hd
        rw [hLg] at hcp hvp
        have hxR : ∀ z ∈ R, x.1 < z.1 := by
          intro z hz
          simp only [keys, List.map_append, List.map_cons, List.pairwise_append, List.pairwise_cons] at hsr
          exact hsr.2.1.1 z.1 (List.mem_map_of_mem (f := (·.1)) hz)
        simp only [hend, Bool.false_eq_true, if_false, hcp, Out.ok_bind, Bool.false_or]
        rw [mergeL]
        by_cases hgt : x.1 > y.1
        · have hall : ∀ z ∈ x :: R, y.1 < z.1 := by
            intro z hz
            rcases List.mem_cons.mp hz with rfl | hz
            · exact hgt
            · have := hxR z hz; omega
          obtain ⟨m1, h1, h2, h3, h4⟩ := insCase hall
          rw [if_pos (by simpa using hgt), if_pos hgt]
          simp only [h1, Out.pure_eq, Out.ok_bind]
          exact contIns hall m1 h2 h3 h4
        · rw [if_neg (by simpa using hgt), if_neg hgt]
          by_cases hlt' : x.1 < y.1
          · rw [if_pos hlt', if_pos hlt']
            simp only [Out.pure_eq, Out.ok_bind]
            obtain ⟨m', h5, h6, h7⟩ := ih (D ++ [x]) R DB (y :: B) hm hs hi (by rw [hrow]; simp) hrowM
              (by
                intro a ha z hz
                rcases List.mem_append.mp ha with ha | ha
                · exact hlt a ha z hz
                · simp only [List.mem_singleton] at ha; subst ha
                  rcases List.mem_cons.mp hz with rfl | hz
                  · exact hlt'
                  · have := hyB z hz; omega)
              hb (by simp at hf ⊢; omega)
            refine ⟨m', ?_, by simpa using h6, h7⟩
            rw [← h5]
            simp [Nat.add_assoc]
          · rw [if_neg hlt', if_neg hlt']
            obtain ⟨m1, h1, h2, h3⟩ := hm.setAt (a := i) hi hd (x.2 + signed isAdd y.2)
            simp only [hvp, h1, Out.pure_eq, Out.ok_bind]
            have hset : L[i].set D.length (L[i][D.length].1, x.2 + signed isAdd y.2)
                = (D ++ [(x.1, x.2 + signed isAdd y.2)]) ++ R := by
              have : L[i] = D ++ x :: R := by rw [← row_of_lt hi, hrow]
              rw [hLg, this]
              simp
            rw [hset] at h3
            have hso : Sorted (L.set i ((D ++ [(x.1, x.2 + signed isAdd y.2)]) ++ R)) := by
              intro a
              rw [row_set hi]
              split
              · have : keys ((D ++ [(x.1, x.2 + signed isAdd y.2)]) ++ R) = keys (D ++ x :: R) := by simp [keys]
                rw [this]; exact hsr
              · exact hs a
            obtain ⟨m', h5, h6, h7⟩ := ih (D ++ [(x.1, x.2 + signed isAdd y.2)]) R (DB ++ [y]) B h3 hso
              (by simpa using hi) (by rw [row_set hi, if_pos rfl]) (by rw [hrowM]; simp)
              (by
                intro a ha z hz
                rcases List.mem_append.mp ha with ha | ha
                · exact hlt a ha z (by simp [hz])
                · simp only [List.mem_singleton] at ha; subst ha
                  have := hyB z hz
                  simp only; omega)
              (by intro z hz; exact hb z (by simp [hz])) (by simp at hf ⊢; omega)
            refine ⟨m', ?_, ?_, fun hall => by
              rw [h7 (fun z hz => by rw [h2]; exact hall z (by simp [hz])), h2]⟩
            · rw [← h5, psum_set L hi, if_pos (Nat.le_refl i)]
              simp [Nat.add_assoc]
            · rw [List.set_set] at h6
              simpa using h6

/-- The same loop when both operands are the same object: the iterators move together. -/
theorem mergeLoop_self [Zero α] [Add α] [Neg α] (isAdd : Bool) {i : Nat} (fuel : Nat) :
    ∀ {m : Sparse α} {L : Rows α} (D R : List (Nat × α)), m.Rep L → i < L.length → row L i = D ++ R → R.length < fuel →
      ∃ m', mergeLoop isAdd none i fuel (m, (i, psum L i + D.length), (i, psum L i + D.length)) = .ok m' ∧
        m'.Rep (L.set i (D ++ R.map fun x => (x.1, x.2 + signed isAdd x.2))) ∧ m'.colSize = m.colSize := by
  induction fuel with
  | zero => intro m L D R _ _ _ h; omega
  | succ fuel ih =>
    intro m L D R hm hi hrow hf
    have hpL := psum_succ L hi
    have hLl : L[i].length = D.length + R.length := by rw [← row_of_lt hi, hrow, List.length_append]
    unfold mergeLoop
    simp only [operand, Option.getD_none, hm.rowEnd hi, Out.ok_bind]
    cases R with
    | nil =>
      have he : (((i, psum L i + D.length) : Iter) != (i, psum L (i + 1))) = false := by
        simp at hLl ⊢; omega
      rw [if_neg (by rw [he]; simp)]
      refine ⟨m, rfl, ?_, rfl⟩
      simp only [List.map_nil]
      rw [← hrow, set_row_self L hi]
      exact hm
    | cons x R =>
      have he : (((i, psum L i + D.length) : Iter) != (i, psum L (i + 1))) = true := by
        simp at hLl ⊢; omega
      have hend : (((i, psum L i + D.length) : Iter) == (i, psum L (i + 1))) = false := by
        simp at hLl ⊢; omega
      rw [if_pos he]
      have hd : D.length < L[i].length := by rw [hLl]; simp
      have hLg : L[i][D.length] = x := by
        have : L[i] = D ++ x :: R := by rw [← row_of_lt hi, hrow]
        simp [this]
      have hcp := hm.colAt (a := i) hi hd
      have hvp := hm.valAt (a := i) hi hd
      rw [hLg] at hcp hvp
      obtain ⟨m1, h1, h2, h3⟩ := hm.setAt (a := i) hi hd (x.2 + signed isAdd x.2)
      unfold mergeStep
      simp only [operand, Option.getD_none, hm.rowEnd hi, Out.ok_bind, hcp, hvp, hend, Bool.false_eq_true, if_false,
        Bool.false_or, gt_iff_lt, Nat.lt_irrefl, decide_false, h1, Out.pure_eq]
      have hset : L[i].set D.length (L[i][D.length].1, x.2 + signed isAdd x.2)
          = (D ++ [(x.1, x.2 + signed isAdd x.2)]) ++ R := by
        have : L[i] = D ++ x :: R := by rw [← row_of_lt hi, hrow]
        rw [hLg, this]
        simp
      rw [hset] at h3
      obtain ⟨m', h5, h6, h7⟩ := ih (D ++ [(x.1, x.2 + signed isAdd x.2)]) R h3 (by simpa using hi)
        (by rw [row_set hi, if_pos rfl]) (by simp at hf ⊢; omega)
      refine ⟨m', ?_, ?_, by omega⟩
      · rw [← h5, psum_set L hi, if_pos (Nat.le_refl i)]
        simp [Nat.add_assoc]
      · rw [List.set_set] at h6
        simpa using h6

/-- Rows after addition or subtraction. -/
def arithRows [Add α] [Neg α] (isAdd : Bool) (L M : Rows α) : Rows α :=
  (List.range L.length).map fun i => mergeL (fun a b => a + signed isAdd b) (signed isAdd) (row L i) (row M i)

theorem row_map_range {β : Type} (n : Nat) (f : Nat → List β) (i : Nat) :
    row ((List.range n).map f) i = if i < n then f i else [] := by
  by_cases h : i < n
  · rw [if_pos h, row_of_lt (by simpa using h)]; simp
  · rw [if_neg h, row_of_ge (by simpa using h)]

theorem flatten_length_psum {β : Type} (L : List (List β)) {i : Nat} (hi : i < L.length) :
    (row L i).length ≤ L.flatten.length := by
  have := psum_succ L hi
  have := psum_le L (i + 1)
  rw [row_of_lt hi]; omega

theorem Rep.arith [Zero α] [Add α] [Neg α] (h : m.Rep L) (hs : Sorted L) {o : Sparse α} {M : Rows α} (ho : o.Rep M)
    (hMs : Sorted M) (hMb : Bounded sizeMax M) (hl : L.length = M.length) (hc : m.colSize = o.colSize) (isAdd : Bool) :
    ∃ m', m.arith isAdd (some o) = .ok m' ∧ m'.Rep (arithRows isAdd L M) ∧
      (Bounded o.colSize M → m'.colSize = m.colSize) := by
  unfold Sparse.arith
  simp only [operand, Option.getD_some, h.sizeRow, ho.sizeRow, hl, hc, beq_self_eq_true, Bool.and_self, assert_true,
    Out.ok_bind]
  let F := fun i => mergeL (fun a b => a + signed isAdd b) (signed isAdd) (row L i) (row M i)
  obtain ⟨m', h1, N, h2, h3, h4, h5, h6⟩ := loop_inv (body := mergeRow isAdd (some o)) (n := M.length)
    (I := fun n s => ∃ N, s.Rep N ∧ N.length = M.length ∧ Sorted N ∧ (∀ i, row N i = if i < n then F i else row L i) ∧
      (Bounded o.colSize M → s.colSize = m.colSize))
    (s := m) ⟨L, h, hl, hs, by simp, fun _ => rfl⟩ (by
      rintro i s hi ⟨N, h2, h3, h4, h5, h6⟩
      have hiN : i < N.length := by omega
      unfold mergeRow
      simp only [h2.rowBegin hiN, operand, Option.getD_some, ho.rowBegin hi, Out.ok_bind]
      have hlen : s.cols.length = N.flatten.length := by rw [h2.cols, List.length_map]
      have hlen2 : o.cols.length = M.flatten.length := by rw [ho.cols, List.length_map]
      have hr : row N i = row L i := by rw [h5, if_neg (by omega)]
      obtain ⟨s', h7, h8, h9⟩ := mergeLoop_ok isAdd ho hMs hi (s.cols.length + o.cols.length + 1) [] (row N i) [] (row M i)
        h2 h4 hiN rfl rfl (by simp) (hMb i) (by
          have := flatten_length_psum N hiN
          have := flatten_length_psum M hi
          omega)
      refine ⟨s', h7, _, h8, by simpa using h3, ?_, ?_, ?_⟩
      · intro a
        rw [row_set hiN]
        split
        · exact sorted_mergeL _ _ _ _ (h4 i) (hMs i)
        · exact h4 a
      · intro a
        rw [row_set hiN]
        by_cases hai : a = i
        · subst hai; rw [if_pos rfl, if_pos (by omega), hr]; rfl
        · rw [if_neg hai, h5]
          by_cases h' : a < i
          · rw [if_pos h', if_pos (by omega)]
          · rw [if_neg h', if_neg (by omega)]
      · intro hB
        rw [h9 (fun y hy => by rw [h6 hB, hc]; exact hB i y hy), h6 hB])
  refine ⟨m', h1, ?_, fun hB => by rw [h6 hB, hc]⟩
  rw [rows_ext (L := arithRows isAdd L M) (M := N)]
  · exact h2
  · simp [arithRows, hl, h3]
  · intro i
    unfold arithRows
    rw [row_map_range, h5, hl]
    split
    · rfl
    · rw [row_of_ge (by omega)]

/-- Rows after adding or subtracting a matrix to or from itself. -/
def selfRows [Add α] [Neg α] (isAdd : Bool) (L : Rows α) : Rows α :=
  L.map fun r => r.map fun x => (x.1, x.2 + signed isAdd x.2)

theorem row_map {β γ : Type} (f : List β → List γ) (hf : f [] = []) (L : List (List β)) (i : Nat) :
    row (L.map f) i = f (row L i) := by
  unfold row
  rw [List.getElem?_map]
  cases L[i]? <;> simp [hf]

theorem Rep.arith_self [Zero α] [Add α] [Neg α] (h : m.Rep L) (isAdd : Bool) :
    ∃ m', m.arith isAdd none = .ok m' ∧ m'.Rep (selfRows isAdd L) ∧ m'.colSize = m.colSize := by
  unfold Sparse.arith
  simp only [operand, Option.getD_none, h.sizeRow, beq_self_eq_true, Bool.and_self, assert_true, Out.ok_bind]
  let F := fun i => (row L i).map fun x => (x.1, x.2 + signed isAdd x.2)
  obtain ⟨m', h1, N, h2, h3, h5, h6⟩ := loop_inv (body := mergeRow isAdd none) (n := L.length)
    (I := fun n s => ∃ N, s.Rep N ∧ N.length = L.length ∧ (∀ i, row N i = if i < n then F i else row L i) ∧
      s.colSize = m.colSize)
    (s := m) ⟨L, h, rfl, by simp, rfl⟩ (by
      rintro i s hi ⟨N, h2, h3, h5, h6⟩
      have hiN : i < N.length := by omega
      unfold mergeRow
      simp only [h2.rowBegin hiN, operand, Option.getD_none, Out.ok_bind]
      have hlen : s.cols.length = N.flatten.length := by rw [h2.cols, List.length_map]
      have hr : row N i = row L i := by rw [h5, if_neg (by omega)]
      obtain ⟨s', h7, h8, h9⟩ := mergeLoop_self isAdd (s.cols.length + s.cols.length + 1) [] (row N i)
        h2 hiN rfl (by
          have := flatten_length_psum N hiN
          omega)
      refine ⟨s', h7, _, h8, by simpa using h3, ?_, by rw [h9, h6]⟩
      intro a
      rw [row_set hiN]
      by_cases hai : a = i
      · subst hai; rw [if_pos rfl, if_pos (by omega), hr]; rfl
      · rw [if_neg hai, h5]
        by_cases h' : a < i
        · rw [if_pos h', if_pos (by omega)]
        · rw [if_neg h', if_neg (by omega)])
  refine ⟨m', h1, ?_, h6⟩
  rw [rows_ext (L := selfRows isAdd L) (M := N)]
  · exact h2
  · simp [selfRows, h3]
  · intro i
    unfold selfRows
    rw [row_map _ (by rfl), h5]
    split
    · rfl
    · rw [row_of_ge (by omega)]; rfl

theorem entry_arithRows [Add α] [Neg α] (isAdd : Bool) {M : Rows α} (hs : Sorted L) (hMs : Sorted M)
    (hl : L.length = M.length) (i j : Nat) :
    entry (arithRows isAdd L M) i j =
      joinOpt (fun a b => a + signed isAdd b) (signed isAdd) (entry L i j) (entry M i j) := by
  unfold entry arithRows
  rw [row_map_range]
  split
  · exact lookup_mergeL _ _ _ _ (hs i) (hMs i) j
  · rw [row_of_ge (by omega), row_of_ge (by omega)]; rfl

theorem sorted_arithRows [Add α] [Neg α] (isAdd : Bool) {M : Rows α} (hs : Sorted L) (hMs : Sorted M) :
    Sorted (arithRows isAdd L M) := by
  intro i
  unfold arithRows
  rw [row_map_range]
  split
  · exact sorted_mergeL _ _ _ _ (hs i) (hMs i)
  · exact List.Pairwise.nil

theorem bounded_iff {c : Nat} : Bounded c L ↔ ∀ i, ∀ k ∈ keys (row L i), k < c := by
  unfold Bounded
  refine forall_congr' fun i => ?_
  simp

theorem bounded_arithRows [Add α] [Neg α] (isAdd : Bool) {M : Rows α} {c : Nat} (hs : Bounded c L) (hMs : Bounded c M) :
    Bounded c (arithRows isAdd L M) := by
  rw [bounded_iff] at *
  intro i k hk
  unfold arithRows at hk
  rw [row_map_range] at hk
  split at hk
  · rcases (keys_mergeL _ _ _ _ k).mp hk with h | h
    · exact hs i k h
    · exact hMs i k h
  · simp at hk

theorem keys_selfRows [Add α] [Neg α] (isAdd : Bool) (i : Nat) : keys (row (selfRows isAdd L) i) = keys (row L i) := by
  unfold selfRows
  rw [row_map _ (by rfl)]
  simp [keys]

theorem lookup_map_snd {β γ : Type} (f : β → γ) (r : List (Nat × β)) (j : Nat) :
    (r.map fun x => (x.1, f x.2)).lookup j = (r.lookup j).map f := by
  induction r with
  | nil => rfl
  | cons x r ih =>
    obtain ⟨k, w⟩ := x
    simp only [List.map_cons, List.lookup_cons, ih]
    cases j == k <;> rfl

theorem entry_selfRows [Add α] [Neg α] (isAdd : Bool) (i j : Nat) :
    entry (selfRows isAdd L) i j = (entry L i j).map fun a => a + signed isAdd a := by
  unfold entry selfRows
  rw [row_map _ (by rfl)]
  exact lookup_map_snd (fun a => a + signed isAdd a) _ j

end Sparse
end Disa
