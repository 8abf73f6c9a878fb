import Verif.Props.SparseArith
import Verif.Sparse.Visit

/-!
# Properties C64 to C69: further properties of sparse matrices
-/

namespace Disa.Props

open Disa Spec Sparse

variable {α : Type}

/-! ### C64 -/

/-- C64 as stated in the properties file. -/
def C64 : Prop := ∀ m : Sparse Int, Built false m → ∀ i j, m.sizeRow ≤ i → m.contains i j = .ok false

/-- C64, what happens instead: on every matrix, `find`, `lower_bound` and `contains` with any row out of range read behind
the end of the row offsets. -/
theorem c64_lookup_ub [Zero α] [Add α] [Neg α] [Mul α] [Div α] (z : Bool) (m : Sparse α) (h : Built z m) (i j : Nat)
    (hi : m.sizeRow ≤ i) : m.find i j = .ub ∧ m.lowerBound i j = .ub ∧ m.contains i j = .ub := by
  obtain ⟨L, h1, _⟩ := inv_built h
  rw [h1.sizeRow] at hi
  exact ⟨h1.find_ub hi, h1.lowerBound_ub hi, h1.contains_ub hi⟩

/-- C64, the part that holds: with the row in range the lookups return, and `contains` says whether iterating over the row
meets the column. -/
theorem c64_in_range_partial [Zero α] [Add α] [Neg α] [Mul α] [Div α] (z : Bool) (m : Sparse α) (h : Built z m) (i j : Nat)
    (hi : i < m.sizeRow) : ∃ b es, m.contains i j = .ok b ∧ elements m i = .ok es ∧ (b = true ↔ ∃ e ∈ es, e.1 = j) := by
  obtain ⟨L, h1, _⟩ := inv_built h
  rw [h1.sizeRow] at hi
  refine ⟨_, _, h1.contains hi j, elements_ok h1 hi, ?_⟩
  rw [decide_eq_true_iff, row_of_lt hi]
  simp [keys]

theorem c64_violated : ¬ C64 := by
  intro h
  have h1 := h wrongAt (wrongAt_built _) 2 0 (by decide)
  rw [(c64_lookup_ub false wrongAt (wrongAt_built _) 2 0 (by decide)).2.2] at h1
  cases h1

/-! ### C65 -/

/-- C65 as stated in the properties file. -/
def C65 : Prop := ∀ m : Sparse Int, Built false m → ∀ i j it v, Spec.lookup m i j = .ok (some v) → m.find i j = .ok it →
  ∃ m' it', m.erase true it = .ok (m', it')

/-- C65, what happens instead: on every matrix and for every iterator, the assertion of `erase` first reads behind the end
of the row offsets. -/
theorem c65_erase_ub [Zero α] [Add α] [Neg α] [Mul α] [Div α] (z : Bool) (m : Sparse α) (h : Built z m) (it : Iter) :
    m.erase true it = .ub := by
  obtain ⟨L, h1, _⟩ := inv_built h
  exact h1.erase_ub it

/-- C65, the part that holds: if that read is harmless, an element found can be erased, and then exactly this element is
gone. -/
theorem c65_erase_partial [Zero α] [Add α] [Neg α] [Mul α] [Div α] (z : Bool) (m : Sparse α) (h : Built z m) (i j : Nat)
    (hi : i < m.sizeRow) (v : α) (hv : Spec.lookup m i j = .ok (some v)) :
    ∃ m', eraseAt m i j = .ok m' ∧ m'.sizeRow = m.sizeRow ∧ m'.colSize = m.colSize ∧
      m'.sizeNonZero + 1 = m.sizeNonZero ∧
      ∀ a b, a < m.sizeRow → Spec.lookup m' a b = if a = i ∧ b = j then .ok none else Spec.lookup m a b := by
  obtain ⟨L, h1, h2, _⟩ := inv_built h
  rw [h1.sizeRow] at hi
  have hk : j ∈ keys (row L i) := by
    rw [lookup_ok h1 hi, Out.ok.injEq] at hv
    rw [mem_keys_iff, hv]; simp
  obtain ⟨m', h3, h4, h5⟩ := eraseAt_ok h1 h2 hi hk
  refine ⟨m', h3, by rw [h4.sizeRow, h1.sizeRow, List.length_set], h5, ?_, ?_⟩
  · unfold Sparse.sizeNonZero
    rw [h4.cols, h1.cols, List.length_map, List.length_map]
    have hs := h2 i
    have hlen : (delRow j (row L i)).length + 1 = (row L i).length := by
      have key : ∀ r : List (Nat × α), (keys r).Pairwise (· < ·) → j ∈ keys r → (delRow j r).length + 1 = r.length := by
        intro r hr hj
        induction r with
        | nil => simp at hj
        | cons x r ih =>
          simp only [keys, List.map_cons, List.pairwise_cons] at hr
          by_cases hx : x.1 = j
          · have : delRow j r = r := by
              unfold delRow
              rw [List.filter_eq_self]
              intro y hy
              have := hr.1 y.1 (List.mem_map_of_mem hy)
              simp; omega
            unfold delRow at this ⊢
            rw [List.filter_cons_of_neg (by simpa using hx), this]; rfl
          · have hj' : j ∈ keys r := by
              simp only [keys, List.map_cons, List.mem_cons] at hj
              rcases hj with hj | hj
              · exact absurd hj.symm hx
              · exact hj
            have := ih hr.2 hj'
            unfold delRow at this ⊢
            rw [List.filter_cons_of_pos (by simpa using hx), List.length_cons, List.length_cons, this]
      exact key _ hs hk
    have hf : ∀ (K : Rows α) (a : Nat) (r : List (Nat × α)), a < K.length →
        (K.set a r).flatten.length + (row K a).length = K.flatten.length + r.length := by
      intro K
      induction K with
      | nil => intro a r ha; simp at ha
      | cons x K ih =>
        intro a r ha
        cases a with
        | zero => simp [row, -List.length_flatten]; omega
        | succ a =>
          have := ih a r (by simpa using ha)
          simp only [List.set_cons_succ, List.flatten_cons, List.length_append]
          have e : row (x :: K) (a + 1) = row K a := by simp [row]
          rw [e]; omega
    have := hf L i (delRow j (row L i)) hi
    rw [row_of_lt hi] at *
    omega
  · intro a b ha
    rw [h1.sizeRow] at ha
    rw [lookup_ok h4 (by rw [List.length_set]; exact ha), lookup_ok h1 ha, entry_del hi]
    split <;> rfl

theorem c65_violated : ¬ C65 := by
  intro h
  obtain ⟨m', it', h1⟩ := h wrongAt (wrongAt_built _) 0 0 (0, 0) 5 (by decide +kernel) (by decide +kernel)
  rw [c65_erase_ub false wrongAt (wrongAt_built _)] at h1
  cases h1

example : ∃ m', eraseAt wrongAt 0 0 = .ok m' ∧ m'.sizeNonZero + 1 = 2 :=
  let ⟨m', h1, _, _, h2, _⟩ := c65_erase_partial false wrongAt (wrongAt_built _) 0 0 (by decide) 5 (by decide +kernel)
  ⟨m', h1, h2⟩

/-! ### C66 -/

/-- C66 as stated in the properties file: which of the pointers returned by `data` are addresses of the storage. -/
def C66 : Prop := ∀ m : Sparse Int, Built false m →
  m.data = .ok (!m.empty, m.sizeNonZero != 0, m.sizeNonZero != 0)

/-- C66, what happens instead. -/
theorem c66_data (m : Sparse α) :
    (0 < m.sizeNonZero → m.data = .ok (false, false, false)) ∧
    (m.sizeNonZero = 0 → m.empty = false → m.data = .ub) ∧
    (m.sizeNonZero = 0 → m.empty = true → m.data = .ok (true, false, false)) := by
  unfold Sparse.data
  refine ⟨fun h => ?_, fun h h2 => ?_, fun h h2 => ?_⟩
  · have : (m.sizeNonZero == 0) = false := by simp; omega
    simp [this]
  · simp [h, h2]
  · simp [h, h2]

/-- C66 does not hold for any matrix with elements, nor for any with rows. -/
theorem c66_never [Zero α] [Add α] [Neg α] [Mul α] [Div α] (m : Sparse α) :
    m.data ≠ .ok (!m.empty, m.sizeNonZero != 0, m.sizeNonZero != 0) := by
  obtain ⟨h1, h2, h3⟩ := c66_data m
  intro h
  rcases Nat.eq_zero_or_pos m.sizeNonZero with hz | hz
  · cases he : m.empty with
    | false => rw [h2 hz he] at h; cases h
    | true => rw [h3 hz he] at h; simp [he] at h
  · rw [h1 hz] at h
    have : (m.sizeNonZero != 0) = true := by simp; omega
    rw [this] at h
    simp at h

theorem c66_violated : ¬ C66 := fun h => c66_never wrongAt (h wrongAt (wrongAt_built _))

/-! ### C67 -/

/-- C67 as stated in the properties file, for the multiplication. -/
def C67 : Prop := ∀ m : Sparse Int, Built false m → ∀ i j v it, m.find i j = .ok it → Spec.lookup m i j = .ok (some v) →
  m.scaleRef it.2 = .ok (m.scale v)

theorem refLoop (f : α → α → α) (xs : List α) (p : Nat) (hp : p < xs.length) :
    loop xs.length (fun k vals => do
      let x ← rd vals k
      let a ← rd vals p
      wr vals k (f x a)) xs =
    .ok (xs.mapIdx fun k x => if k ≤ p then f x xs[p] else f x (f xs[p] xs[p])) := by
  obtain ⟨s, h1, h2⟩ := loop_inv
    (body := fun k vals => do
      let x ← rd vals k
      let a ← rd vals p
      wr vals k (f x a))
    (fun n vals => vals = xs.mapIdx fun k x => if k < n then (if k ≤ p then f x xs[p] else f x (f xs[p] xs[p])) else x)
    (n := xs.length) (s := xs) (List.ext_getElem (by simp) (by simp)) (by
      rintro k vals hk rfl
      have hkl : k < (xs.mapIdx fun l x => if l < k then (if l ≤ p then f x xs[p] else f x (f xs[p] xs[p])) else x).length := by
        simpa using hk
      have hpl : p < (xs.mapIdx fun l x => if l < k then (if l ≤ p then f x xs[p] else f x (f xs[p] xs[p])) else x).length := by
        simpa using hp
      simp only [rd_ok hkl, rd_ok hpl, Out.ok_bind, wr_ok hkl]
      refine ⟨_, rfl, ?_⟩
      apply List.ext_getElem
      · simp
      · intro l hl1 hl2
        rw [List.getElem_set]
        simp only [List.getElem_mapIdx, Nat.lt_irrefl, if_false, Nat.le_refl, if_true]
        by_cases hkl : k = l
        · subst hkl
          by_cases hkp : k ≤ p
          · have : ¬ p < k := by omega
            simp [hkp, this]
          · have : p < k := by omega
            simp [this, hkp]
        · have : l < k ↔ l < k + 1 := by omega
          simp [hkl, this])
  rw [h1, h2, Out.ok.injEq]
  apply List.ext_getElem
  · simp
  · intro l hl1 hl2
    simp only [List.length_mapIdx] at hl1
    simp [hl1]

/-- C67, what happens instead, for `*=` and `/=` with a reference to the element in storage position `p`: the elements up
to and including it are scaled by its old value, the ones behind it by its new value.  The storage order is by rows, then
columns. -/
theorem c67_exact [Mul α] [Div α] (m : Sparse α) (p : Nat) (hp : p < m.vals.length) :
    m.scaleRef p = .ok { m with vals := m.vals.mapIdx fun k x =>
      if k ≤ p then x * m.vals[p] else x * (m.vals[p] * m.vals[p]) } ∧
    m.unscaleRef p = .ok { m with vals := m.vals.mapIdx fun k x =>
      if k ≤ p then x / m.vals[p] else x / (m.vals[p] / m.vals[p]) } := by
  unfold Sparse.scaleRef Sparse.unscaleRef
  rw [refLoop (fun x a => x * a) m.vals p hp, refLoop (fun x a => x / a) m.vals p hp]
  exact ⟨rfl, rfl⟩

/-- C67, the part that holds: scaling by the last element, or by an element whose square or quotient with itself is
itself. -/
theorem c67_scale_partial [Mul α] [Div α] (m : Sparse α) (p : Nat) (hp : p < m.vals.length) :
    (p + 1 = m.vals.length ∨ m.vals[p] * m.vals[p] = m.vals[p] → m.scaleRef p = .ok (m.scale m.vals[p])) ∧
    (p + 1 = m.vals.length ∨ m.vals[p] / m.vals[p] = m.vals[p] → m.unscaleRef p = .ok (m.unscale m.vals[p])) := by
  obtain ⟨h1, h2⟩ := c67_exact m p hp
  rw [h1, h2]
  unfold Sparse.scale Sparse.unscale
  constructor
  · intro h
    congr 2
    apply List.ext_getElem
    · simp
    · intro k hk1 hk2
      simp only [List.length_mapIdx] at hk1
      simp only [List.getElem_mapIdx, List.getElem_map]
      rcases h with h | h
      · rw [if_pos (by omega)]
      · split
        · rfl
        · exact congrArg _ h
  · intro h
    congr 2
    apply List.ext_getElem
    · simp
    · intro k hk1 hk2
      simp only [List.length_mapIdx] at hk1
      simp only [List.getElem_mapIdx, List.getElem_map]
      rcases h with h | h
      · rw [if_pos (by omega)]
      · split
        · rfl
        · exact congrArg _ h

theorem c67_violated : ¬ C67 := by
  intro h
  have h1 := h wrongAt (wrongAt_built _) 0 0 5 (0, 0) (by decide +kernel) (by decide +kernel)
  have h2 : wrongAt.scaleRef 0 ≠ .ok (wrongAt.scale 5) := by decide +kernel
  exact h2 h1

/-! ### C68 -/

/-- C68: the lists that the constructor should accept. -/
def Consistent (nz index : List Nat) (value : List α) (c : Nat) : Prop :=
  nz[0]? = some 0 ∧ nz[nz.length - 1]? = some index.length ∧ index.length = value.length ∧
  ∀ i a b, nz[i]? = some a → nz[i + 1]? = some b → a ≤ b ∧
    (∀ k, a ≤ k → k < b → ∃ j, index[k]? = some j ∧ j < c) ∧
    ∀ k l, a ≤ k → k < l → l < b → index[k]? ≠ index[l]?

theorem mem_rawRow {ps : List (Nat × α)} {a b : Nat} {x : Nat × α} :
    x ∈ (ps.drop a).take (b - a) ↔ ∃ k, a ≤ k ∧ k < b ∧ ps[k]? = some x := by
  rw [List.mem_iff_getElem?]
  constructor
  · rintro ⟨k, hk⟩
    rw [List.getElem?_take] at hk
    split at hk
    · rw [List.getElem?_drop] at hk
      exact ⟨a + k, by omega, by omega, hk⟩
    · cases hk
  · rintro ⟨k, h1, h2, h3⟩
    refine ⟨k - a, ?_⟩
    rw [List.getElem?_take, if_pos (by omega), List.getElem?_drop]
    have : a + (k - a) = k := by omega
    rw [this, h3]

theorem zip_some {xs : List Nat} {ys : List α} (h : xs.length = ys.length) (k : Nat) (x : Nat × α) :
    (xs.zip ys)[k]? = some x ↔ xs[k]? = some x.1 ∧ ys[k]? = some x.2 := by
  rw [List.getElem?_zip_eq_some]

theorem getD_of_some {xs : List Nat} {i a : Nat} (h : xs[i]? = some a) : xs.getD i 0 = a := by
  rw [List.getD_eq_getElem?_getD, h]; rfl

theorem nodup_row {ps : List (Nat × α)} {a b : Nat} (hb : b ≤ ps.length) :
    (keys ((ps.drop a).take (b - a))).Nodup ↔
      ∀ k l, a ≤ k → k < l → l < b → (ps[k]?).map (·.1) ≠ (ps[l]?).map (·.1) := by
  have hlen : ((ps.drop a).take (b - a)).length = b - a := by
    rw [List.length_take, List.length_drop]; omega
  have hget : ∀ k, a ≤ k → k < b → (keys ((ps.drop a).take (b - a)))[k - a]? = (ps[k]?).map (·.1) := by
    intro k h1 h2
    unfold keys
    rw [List.getElem?_map, List.getElem?_take, if_pos (by omega), List.getElem?_drop]
    have : a + (k - a) = k := by omega
    rw [this]
  rw [List.nodup_iff_getElem?_ne_getElem?]
  constructor
  · intro h k l h1 h2 h3
    rw [← hget k h1 (by omega), ← hget l (by omega) h3]
    exact h (k - a) (l - a) (by omega) (by unfold keys; rw [List.length_map, hlen]; omega)
  · intro h k l h1 h2
    unfold keys at h2
    rw [List.length_map, hlen] at h2
    have e1 := hget (a + k) (by omega) (by omega)
    have e2 := hget (a + l) (by omega) (by omega)
    rw [Nat.add_sub_cancel_left] at e1 e2
    rw [e1, e2]
    exact h _ _ (by omega) (by omega) (by omega)

theorem consistent_iff {nz index : List Nat} {value : List α} {c : Nat} (hne : nz ≠ []) :
    Consistent nz index value c ↔ GoodLists nz index value ∧ ∀ r ∈ rawRows nz (index.zip value), GoodRow c r := by
  have hpos : 0 < nz.length := List.length_pos_iff.mpr hne
  have hlast : nz[nz.length - 1]? = some (nz.getLastD 0) := by
    rw [List.getLastD_eq_getLast?, List.getLast?_eq_getElem?, List.getElem?_eq_getElem (by omega)]; rfl
  have hrows : (∀ r ∈ rawRows nz (index.zip value), GoodRow c r) ↔
      ∀ i, i + 1 < nz.length → GoodRow c (((index.zip value).drop (nz.getD i 0)).take (nz.getD (i + 1) 0 - nz.getD i 0)) := by
    unfold rawRows
    simp only [List.mem_map, List.mem_range, forall_exists_index, and_imp, forall_apply_eq_imp_iff₂]
    exact forall_congr' fun i => ⟨fun h hi => h (by omega), fun h hi => h (by omega)⟩
  rw [hrows]
  unfold Consistent GoodLists
  rw [hlast, Option.some.injEq]
  have hsome : ∀ i, i < nz.length → nz[i]? = some (nz.getD i 0) := by
    intro i hi
    rw [List.getD_eq_getElem?_getD, List.getElem?_eq_getElem hi]; rfl
  have hle : (∀ i, i + 1 < nz.length → nz.getD i 0 ≤ nz.getD (i + 1) 0) → nz.getLastD 0 = index.length →
      ∀ i, i < nz.length → nz.getD i 0 ≤ index.length := by
    intro hm hl i hi
    have key : ∀ d, d ≤ nz.length - 1 → nz.getD (nz.length - 1 - d) 0 ≤ index.length := by
      intro d
      induction d with
      | zero =>
        intro _
        have := hsome (nz.length - 1) (by omega)
        rw [hlast, Option.some.injEq] at this
        rw [Nat.sub_zero, ← this, hl]
      | succ d ih =>
        intro hd
        have h1 := hm (nz.length - 1 - (d + 1)) (by omega)
        have e : nz.length - 1 - (d + 1) + 1 = nz.length - 1 - d := by omega
        rw [e] at h1
        have := ih (by omega)
        omega
    have := key (nz.length - 1 - i) (by omega)
    have e : nz.length - 1 - (nz.length - 1 - i) = i := by omega
    rwa [e] at this
  have hgood : ∀ (hlen : index.length = value.length) a b, b ≤ index.length →
      (GoodRow c (((index.zip value).drop a).take (b - a)) ↔
        (∀ k, a ≤ k → k < b → ∃ j, index[k]? = some j ∧ j < c) ∧
        ∀ k l, a ≤ k → k < l → l < b → index[k]? ≠ index[l]?) := by
    intro hlen a b hb
    have hzl : (index.zip value).length = index.length := by rw [List.length_zip]; omega
    unfold GoodRow
    rw [nodup_row (by omega)]
    have hmap : ∀ k : Nat, ((index.zip value)[k]?).map (fun x : Nat × α => x.1) = index[k]? := by
      intro k
      rw [← List.getElem?_map]
      show (List.map Prod.fst (index.zip value))[k]? = _
      rw [List.map_fst_zip (by omega)]
    simp only [hmap]
    refine and_congr_left fun _ => ?_
    constructor
    · intro h k h1 h2
      have hki : k < index.length := by omega
      refine ⟨index[k], List.getElem?_eq_getElem hki, ?_⟩
      exact h (index[k], value[k]) (mem_rawRow.mpr ⟨k, h1, h2, (zip_some hlen _ _).mpr
        ⟨List.getElem?_eq_getElem hki, List.getElem?_eq_getElem (by omega)⟩⟩)
    · intro h x hx
      obtain ⟨k, h1, h2, h3⟩ := mem_rawRow.mp hx
      obtain ⟨j, h4, h5⟩ := h k h1 h2
      rw [zip_some hlen, h4, Option.some.injEq] at h3
      rw [← h3.1]; exact h5
  constructor
  · rintro ⟨h0, hl, hlen, h⟩
    have hm : ∀ i, i + 1 < nz.length → nz.getD i 0 ≤ nz.getD (i + 1) 0 := fun i hi =>
      (h i _ _ (hsome i (by omega)) (hsome (i + 1) hi)).1
    refine ⟨⟨h0, hl, hm, hlen⟩, fun i hi => ?_⟩
    exact (hgood hlen _ _ (hle hm hl _ hi)).mpr (h i _ _ (hsome i (by omega)) (hsome (i + 1) hi)).2
  · rintro ⟨⟨h0, hl, hm, hlen⟩, h⟩
    refine ⟨h0, hl, hlen, fun i a b ha hb => ?_⟩
    have hi : i + 1 < nz.length := by
      by_contra hc
      rw [List.getElem?_eq_none (by omega)] at hb
      cases hb
    rw [← getD_of_some ha, ← getD_of_some hb]
    exact ⟨hm i hi, (hgood hlen _ _ (hle hm hl _ hi)).mp (h i hi)⟩

/-- C68: the constructor accepts exactly the consistent lists and exits for all others.  An accepted matrix has the given
sizes and holds exactly the given elements. -/
theorem c68_constructor [Zero α] (nz index : List Nat) (value : List α) (c : Nat) (hne : nz ≠ []) (hn : nz.length ≤ sizeMax) :
    (¬ Consistent nz index value c → Sparse.ofLists nz index value c = .exit 1) ∧
    (Consistent nz index value c → ∃ m, Sparse.ofLists nz index value c = .ok m ∧ m.sizeRow + 1 = nz.length ∧
      m.colSize = c ∧ m.sizeNonZero = index.length ∧
      ∀ i a b j v, nz[i]? = some a → nz[i + 1]? = some b → (Spec.lookup m i j = .ok (some v) ↔
        ∃ k, a ≤ k ∧ k < b ∧ index[k]? = some j ∧ value[k]? = some v)) := by
  rw [consistent_iff hne]
  refine ⟨(ofLists_spec hne hn c).2, fun h => ?_⟩
  obtain ⟨m, h1, h2, h3⟩ := (ofLists_spec (value := value) (index := index) hne hn c).1 h
  have hpos : 0 < nz.length := List.length_pos_iff.mpr hne
  have hl : (rawRows nz (index.zip value)).length = nz.length - 1 := by simp [rawRows]
  have hraw := rawRows_rep h.1 hn c
  refine ⟨m, h1, by rw [h2.sizeRow, List.length_map, hl]; omega, h3, ?_, ?_⟩
  · have hp : ((rawRows nz (index.zip value)).map sortRow).flatten.length = (rawRows nz (index.zip value)).flatten.length := by
      have : ∀ K : Rows α, (K.map sortRow).flatten.length = K.flatten.length := by
        intro K
        induction K with
        | nil => rfl
        | cons x K ih =>
          rw [List.map_cons, List.flatten_cons, List.flatten_cons, List.length_append, List.length_append, ih,
            (sortRow_perm x).length_eq]
      exact this _
    unfold Sparse.sizeNonZero
    rw [h2.cols, List.length_map, hp]
    have := congrArg List.length hraw.cols
    rw [List.length_map] at this
    exact this.symm
  · intro i a b j v ha hb
    have hi : i + 1 < nz.length := by
      by_contra hc
      rw [List.getElem?_eq_none (by omega)] at hb
      cases hb
    rw [lookup_ok h2 (by rw [List.length_map, hl]; omega), Out.ok.injEq]
    have hr : row ((rawRows nz (index.zip value)).map sortRow) i = sortRow (((index.zip value).drop a).take (b - a)) := by
      rw [row_of_lt (by rw [List.length_map, hl]; omega), List.getElem_map]
      unfold rawRows
      rw [List.getElem_map, List.getElem_range, getD_of_some ha, getD_of_some hb]
    have hgr : GoodRow c (((index.zip value).drop a).take (b - a)) := by
      apply h.2
      unfold rawRows
      rw [List.mem_map]
      exact ⟨i, List.mem_range.mpr (by omega), by rw [getD_of_some ha, getD_of_some hb]⟩
    unfold entry
    rw [hr, lookup_eq_some (sortRow_lt hgr), (sortRow_perm _).mem_iff, mem_rawRow]
    have hz := h.1.2.2.2
    simp only [zip_some hz]

/-- C68, outside of the claim: an empty list of offsets is read before it is checked. -/
theorem c68_empty [Zero α] (index : List Nat) (value : List α) (c : Nat) : Sparse.ofLists [] index value c = .ub := rfl

example : Consistent [0, 2, 2, 3] [3, 1, 0] [(5 : Int), 6, 7] 4 :=
  (consistent_iff (by decide)).mpr ⟨⟨rfl, rfl, adj_le.mp (by decide), rfl⟩, by unfold GoodRow rawRows keys; decide⟩
example : Sparse.ofLists [0, 2, 2, 3] [3, 1, 0] [(5 : Int), 6, 7] 4 = .ok ⟨[0, 2, 2, 3], [1, 3, 0], [6, 5, 7], 4⟩ := by
  decide +kernel
example : Sparse.ofLists [0, 2] [1, 1] [(5 : Int), 6] 4 = .exit 1 := by decide +kernel

/-! ### C69 -/

/-- C69 as stated in the properties file: `it + n` and `it - n` move by `n` and leave `it` alone, `it += n` moves by `n`.  `n`
is small enough to stay in the matrix. -/
def C69 : Prop :=
  (∀ it n : Nat, it + n ≤ sizeMax → rowIterAdd it n = (it + n, it)) ∧
  (∀ it n : Nat, n ≤ it → it ≤ sizeMax → rowIterSub it n = (it - n, it)) ∧
  (∀ (it : Iter) (n : Nat), elemIterAdd it n = (it.1, it.2 + n) ∧ elemIterAdvance it n = (it.1, it.2 + n))

/-- C69, what happens instead: `it + n` on a row iterator also moves `it`, and the operations on element iterators do not
move at all. -/
theorem c69_exact (it n : Nat) (h : it + n ≤ sizeMax) (p : Iter) :
    rowIterAdd it n = (it + n, it + n) ∧ elemIterAdd p n = p ∧ elemIterAdvance p n = p ∧ elemIterRetreat p n = p := by
  refine ⟨?_, rfl, rfl, rfl⟩
  unfold rowIterAdd wrap
  unfold sizeMax at h
  rw [Nat.mod_eq_of_lt (by omega)]

/-- C69, backwards: `it - n` on a row iterator also moves `it`. -/
theorem c69_exact_sub (it n : Nat) (h : n ≤ it) : rowIterSub it n = (it - n, it - n) := by
  unfold rowIterSub
  rw [usub_of_le (by omega)]

/-- C69, the part that holds on rows: `+=` and `-=` move by `n`, `it[n]` is the row `n` behind, `++` and `--` undo each
other. -/
theorem c69_rows_partial (it n : Nat) (h : it + n ≤ sizeMax) :
    rowIterAdvance it n = it + n ∧ rowIterAt it n = it + n ∧ rowIterRetreat (it + n) n = it ∧
      (0 < n → rowNext it = it + 1 ∧ rowPrev (it + 1) = it) := by
  unfold sizeMax at h
  have h1 : wrap (it + n) = it + n := by unfold wrap; exact Nat.mod_eq_of_lt (by omega)
  refine ⟨h1, h1, ?_, fun hn => ⟨?_, ?_⟩⟩
  · unfold rowIterRetreat
    rw [usub_of_le (by omega)]
    omega
  · unfold rowNext wrap
    exact Nat.mod_eq_of_lt (by omega)
  · unfold rowPrev
    rw [usub_of_le (by omega)]
    omega

/-- C69, offsets are signed: a negative one, which is `2 ^ 64 - k` after the conversion, moves a row iterator the other way. -/
theorem c69_negative (it k : Nat) (hk : 0 < k) :
    (k ≤ it → it ≤ sizeMax → rowIterAdd it (2 ^ 64 - k) = (it - k, it - k) ∧ rowIterAdvance it (2 ^ 64 - k) = it - k ∧
      rowIterAt it (2 ^ 64 - k) = it - k) ∧
    (it + k ≤ sizeMax → rowIterSub it (2 ^ 64 - k) = (it + k, it + k) ∧ rowIterRetreat it (2 ^ 64 - k) = it + k) := by
  refine ⟨fun h hs => ?_, fun h => ?_⟩
  · unfold sizeMax at hs
    have : wrap (it + (2 ^ 64 - k)) = it - k := by
      unfold wrap
      rw [show it + (2 ^ 64 - k) = it - k + 2 ^ 64 by omega, Nat.add_mod_right, Nat.mod_eq_of_lt (by omega)]
    exact ⟨Prod.ext this this, this, this⟩
  · unfold sizeMax at h
    have : usub it (2 ^ 64 - k) = it + k := by
      unfold usub
      rw [if_neg (by omega)]
      omega
    exact ⟨Prod.ext this this, this⟩

example : rowIterAdd 5 (2 ^ 64 - 2) = (3, 3) := ((c69_negative 5 2 (by decide)).1 (by decide) (by decide)).1

/-- C69, the part that holds: `it[n]` is the `n`-th element from `it`. -/
theorem c69_subscript_partial [Zero α] [Add α] [Neg α] [Mul α] [Div α] (z : Bool) (m : Sparse α) (h : Built z m) (i n : Nat)
    (hi : i < m.sizeRow) (it : Iter) (hit : m.rowBegin i = .ok it) (es : List (Nat × α)) (he : elements m i = .ok es)
    (hn : n < es.length) : m.elemIterAt it n = .ok es[n].2 := by
  obtain ⟨L, h1, _⟩ := inv_built h
  rw [h1.sizeRow] at hi
  rw [elements_ok h1 hi, Out.ok.injEq, row_of_lt hi] at he
  subst he
  rw [h1.rowBegin (by omega), Out.ok.injEq] at hit
  subst hit
  exact h1.valAt (a := i) hi hn

theorem c69_violated : ¬ C69 := by
  intro h
  have := h.1 0 1 (by decide)
  rw [(c69_exact 0 1 (by decide) (0, 0)).1] at this
  simp at this

end Disa.Props
