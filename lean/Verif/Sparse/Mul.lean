import Verif.Sparse.Arith

/-!
# The products on rows
-/

namespace Disa

/-- A loop over the elements of a list is a fold, up to a relation between states and abstract states. -/
theorem loop_foldl {σ τ β : Type} {body : Nat → σ → Out σ} (P : σ → τ → Prop) (f : τ → β → τ) (xs : List β)
    (hb : ∀ k (hk : k < xs.length) s t, P s t → ∃ s', body k s = .ok s' ∧ P s' (f t xs[k])) {s : σ} {t : τ} (h : P s t) :
    ∃ s', loop xs.length body s = .ok s' ∧ P s' (xs.foldl f t) := by
  obtain ⟨s', h1, h2⟩ := loop_inv (body := body) (n := xs.length) (I := fun n s => P s ((xs.take n).foldl f t)) (s := s)
    (by simpa using h) (by
      intro i s hi hP
      obtain ⟨s', h1, h2⟩ := hb i hi s _ hP
      refine ⟨s', h1, ?_⟩
      rw [List.take_succ_eq_append_getElem hi, List.foldl_append]
      exact h2)
  exact ⟨s', h1, by simpa using h2⟩

/-- A loop whose body keeps a property or is undefined. -/
theorem loop_or_ub {σ : Type} {body : Nat → σ → Out σ} (P : σ → Prop) {n : Nat} {s : σ} (h0 : P s)
    (hb : ∀ i s, P s → body i s = .ub ∨ ∃ s', body i s = .ok s' ∧ P s') :
    loop n body s = .ub ∨ ∃ s', loop n body s = .ok s' ∧ P s' := by
  induction n with
  | zero => exact .inr ⟨s, rfl, h0⟩
  | succ n ih =>
    rcases ih with h | ⟨s', h, hP⟩
    · left; simp [loop, h]
    · rcases hb n s' hP with h' | ⟨s'', h', hP'⟩
      · left; simp [loop, h, h']
      · right; exact ⟨s'', by simp [loop, h, h'], hP'⟩

namespace Sparse

variable {α : Type} {m : Sparse α} {L : Rows α}

/-- Addition to an optional element. -/
def accOpt [Add α] (o : Option α) (w : α) : Option α := some (match o with | some x => x + w | none => w)

/-- Rows after `w` was added at `(i, j)`, where absent elements are made. -/
def accRows [Add α] (N : Rows α) (t : Nat × Nat × α) : Rows α :=
  match entry N t.1 t.2.1 with
  | some x => N.set t.1 (setRow t.2.1 (x + t.2.2) (row N t.1))
  | none => insRows t.1 t.2.1 t.2.2 N

theorem accRows_length [Add α] {N : Rows α} {t : Nat × Nat × α} (h : t.1 < N.length) : (accRows N t).length = N.length := by
  unfold accRows
  split
  · simp
  · rw [insRows_length]; omega

theorem sorted_accRows [Add α] {N : Rows α} (hs : Sorted N) (t : Nat × Nat × α) : Sorted (accRows N t) := by
  unfold accRows
  split
  · rename_i x hx
    have hk : t.2.1 ∈ keys (row N t.1) := by rw [mem_keys_iff, hx]; simp
    exact sorted_setRow hs (lt_of_key hk) hk _
  · exact sorted_insRows hs _ _ _

theorem entry_accRows [Add α] {N : Rows α} (hs : Sorted N) (t : Nat × Nat × α) (a b : Nat) :
    entry (accRows N t) a b = if a = t.1 ∧ b = t.2.1 then accOpt (entry N a b) t.2.2 else entry N a b := by
  unfold accRows
  split
  · rename_i x hx
    have hk : t.2.1 ∈ keys (row N t.1) := by rw [mem_keys_iff, hx]; simp
    rw [entry_setRow hs (lt_of_key hk) hk]
    split
    · rename_i h; rw [h.1, h.2, hx]; rfl
    · rfl
  · rename_i hx
    rw [entry_insRows hs]
    by_cases h : a = t.1 ∧ b = t.2.1
    · rw [if_pos ⟨h.1, h.2, hx⟩, if_pos h, h.1, h.2, hx]; rfl
    · rw [if_neg (by tauto), if_neg h]

theorem foldl_accRows [Add α] (ts : List (Nat × Nat × α)) {N : Rows α} (hs : Sorted N) (hl : ∀ t ∈ ts, t.1 < N.length) :
    Sorted (ts.foldl accRows N) ∧ (ts.foldl accRows N).length = N.length ∧
    ∀ a b, entry (ts.foldl accRows N) a b =
      ((ts.filter fun t => decide (t.1 = a ∧ t.2.1 = b)).map (·.2.2)).foldl accOpt (entry N a b) := by
  induction ts generalizing N with
  | nil => exact ⟨hs, rfl, fun _ _ => rfl⟩
  | cons t ts ih =>
    have hlt := hl t (by simp)
    obtain ⟨h1, h2, h3⟩ := ih (sorted_accRows hs t) (fun u hu => by rw [accRows_length hlt]; exact hl u (by simp [hu]))
    refine ⟨h1, by rw [List.foldl_cons, h2, accRows_length hlt], ?_⟩
    intro a b
    rw [List.foldl_cons, h3, entry_accRows hs]
    by_cases h : t.1 = a ∧ t.2.1 = b
    · rw [if_pos ⟨h.1.symm, h.2.symm⟩, List.filter_cons_of_pos (by simpa using h)]; rfl
    · rw [if_neg (fun h' => h ⟨h'.1.symm, h'.2.symm⟩), List.filter_cons_of_neg (by simpa using h)]

theorem bounded_accRows [Add α] {N : Rows α} {c : Nat} (hs : Sorted N) (hb : Bounded c N) {t : Nat × Nat × α} (ht : t.2.1 < c) :
    Bounded c (accRows N t) := by
  rw [bounded_iff] at *
  intro i k hk
  rw [mem_keys_iff, entry_accRows hs] at hk
  split at hk
  · rename_i h; omega
  · exact hb i k (mem_keys_iff.mpr hk)

/-- One multiplication and addition of the product. -/
theorem Rep.mulStep [Zero α] [Add α] [Mul α] (hc : m.Rep L) {o : Sparse α} {M : Rows α} (ho : o.Rep M)
    (hMb : Bounded sizeMax M) {i k c l : Nat} (hi : i < L.length) (hk : k < L[i].length) (hcM : c < M.length)
    (hl : l < M[c].length) {s : Sparse α} {N : Rows α} (hs : s.Rep N) (hN : Sorted N) (hiN : i < N.length) :
    ∃ s', Sparse.mulStep m (some o) (i, psum L i + k) (psum M c) l s = .ok s' ∧
      s'.Rep (accRows N (i, M[c][l].1, L[i][k].2 * M[c][l].2)) ∧
      s'.colSize = max s.colSize (if entry N i M[c][l].1 = none then M[c][l].1 + 1 else 0) := by
  unfold Sparse.mulStep
  simp only [operand, Option.getD_some, ho.colAt hcM hl, hc.valAt hi hk, ho.valAt hcM hl, hs.contains hiN, Out.ok_bind,
    decide_eq_true_eq]
  have hjs : M[c][l].1 < sizeMax := hMb c _ (by rw [row_of_lt hcM]; exact List.getElem_mem _)
  have hmem : M[c][l].1 ∈ keys N[i] ↔ entry N i M[c][l].1 ≠ none := by rw [← mem_keys_iff, row_of_lt hiN]
  generalize hy : M[c][l] = y at *
  generalize hx : L[i][k].2 = x at *
  by_cases hh : y.1 ∈ keys N[i]
  · rw [if_pos hh]
    obtain ⟨z, hz⟩ := Option.ne_none_iff_exists'.mp (hmem.mp hh)
    obtain ⟨s', h1, h2, h3⟩ := hs.addAt hN hiN hjs hz (x * y.2)
    refine ⟨s', h1, ?_, ?_⟩
    · unfold accRows; simp only [hz]; exact h2
    · rw [h3, if_neg (by rw [hz]; simp)]; omega
  · rw [if_neg hh]
    have hn : entry N i y.1 = none := by
      by_contra h; exact hh (hmem.mpr h)
    have := hs.small
    obtain ⟨s', b, h1, h2, h3, _⟩ := hs.insert hN (i := i) (j := y.1) (by omega) hjs (x * y.2)
    refine ⟨s', by simp only [h1, Out.ok_bind, Out.pure_eq], ?_, ?_⟩
    · unfold accRows; simp only [hn]; exact h2
    · rw [h3, if_pos hn]

/-- The terms added up for one element of the left matrix. -/
def elemTerms [Mul α] (M : Rows α) (i : Nat) (x : Nat × α) : List (Nat × Nat × α) :=
  (row M x.1).map fun y => (i, y.1, x.2 * y.2)

/-- All terms of the product in the order of their use. -/
def terms [Mul α] (L M : Rows α) : List (Nat × Nat × α) :=
  (List.range L.length).flatMap fun i => (row L i).flatMap (elemTerms M i)

/-- State relation of the product: the rows, their number and, for a bounded operand, the number of columns. -/
structure MulRel (n c : Nat) (B : Prop) (s : Sparse α) (N : Rows α) : Prop where
  rep : s.Rep N
  sorted : Sorted N
  len : N.length = n
  col : B → s.colSize = c

theorem Rep.mulElem [Zero α] [Add α] [Mul α] (hc : m.Rep L) {o : Sparse α} {M : Rows α} (ho : o.Rep M)
    (hMb : Bounded sizeMax M) {i k : Nat} (hi : i < L.length) (hk : k < L[i].length) (hcM : L[i][k].1 < M.length)
    {s : Sparse α} {N : Rows α} (h : MulRel L.length o.colSize (Bounded o.colSize M) s N) :
    ∃ s', Sparse.mulElem m (some o) i (psum L i) k s = .ok s' ∧
      MulRel L.length o.colSize (Bounded o.colSize M) s' ((elemTerms M i L[i][k]).foldl accRows N) := by
  unfold Sparse.mulElem
  simp only [operand, Option.getD_some, hc.colAt hi hk, ho.rowBegin hcM, ho.rowEnd hcM, Out.ok_bind]
  have hp := psum_succ M hcM
  have he : psum M (L[i][k].1 + 1) - psum M L[i][k].1 = (elemTerms M i L[i][k]).length := by
    unfold elemTerms; rw [List.length_map, row_of_lt hcM]; omega
  rw [he]
  refine loop_foldl (MulRel L.length o.colSize (Bounded o.colSize M)) accRows _ ?_ h
  intro l hl t T hT
  have hl' : l < M[L[i][k].1].length := by rw [← row_of_lt hcM]; simpa [elemTerms] using hl
  obtain ⟨s', h1, h2, h3⟩ := hc.mulStep ho hMb hi hk hcM hl' hT.rep hT.sorted (by rw [hT.len]; exact hi)
  refine ⟨s', h1, ?_⟩
  have hx : (elemTerms M i L[i][k])[l] = (i, M[L[i][k].1][l].1, L[i][k].2 * M[L[i][k].1][l].2) := by
    apply Option.some.inj
    rw [← List.getElem?_eq_getElem]
    simp [elemTerms, row_of_lt hcM, hl']
  rw [hx]
  refine ⟨h2, sorted_accRows hT.sorted _, by rw [accRows_length (by rw [hT.len]; exact hi), hT.len], ?_⟩
  intro hB
  rw [h3, hT.col hB]
  have : M[L[i][k].1][l].1 < o.colSize := hB L[i][k].1 _ (by rw [row_of_lt hcM]; exact List.getElem_mem _)
  split <;> omega

theorem Rep.mulRow [Zero α] [Add α] [Mul α] (hc : m.Rep L) {o : Sparse α} {M : Rows α} (ho : o.Rep M)
    (hMb : Bounded sizeMax M) (hLb : Bounded M.length L) {i : Nat} (hi : i < L.length)
    {s : Sparse α} {N : Rows α} (h : MulRel L.length o.colSize (Bounded o.colSize M) s N) :
    ∃ s', Sparse.mulRow m (some o) i s = .ok s' ∧
      MulRel L.length o.colSize (Bounded o.colSize M) s' (((row L i).flatMap (elemTerms M i)).foldl accRows N) := by
  unfold Sparse.mulRow
  simp only [hc.rowBegin hi, hc.rowEnd hi, Out.ok_bind]
  have hp := psum_succ L hi
  have he : psum L (i + 1) - psum L i = L[i].length := by omega
  rw [he, row_of_lt hi, List.foldl_flatMap]
  refine loop_foldl (MulRel L.length o.colSize (Bounded o.colSize M)) (fun N x => (elemTerms M i x).foldl accRows N) _ ?_ h
  intro k hk t T hT
  exact hc.mulElem ho hMb hi hk (hLb i _ (by rw [row_of_lt hi]; exact List.getElem_mem _)) hT

theorem rep_replicate [Zero α] {n : Nat} (hn : n < sizeMax) (c : Nat) :
    ∃ m', (new : Sparse α).resize n c = .ok m' ∧ m'.colSize = c ∧ m'.Rep (List.replicate n []) := by
  obtain ⟨m', h1, h2, h3⟩ := (rep_new (α := α)).resize (by intro i; simp [row]) c hn
  refine ⟨m', h1, h2, ?_⟩
  have : resRows (new : Sparse α).colSize n c ([] : Rows α) = List.replicate n [] := by
    have hc : ¬ c < (new : Sparse α).colSize := by simp [Sparse.new]
    unfold resRows
    rw [if_neg hc]
    simp [pad]
  rwa [this] at h3

theorem row_replicate_nil {β : Type} (n i : Nat) : row (List.replicate n ([] : List β)) i = [] := by
  unfold row
  rw [List.getElem?_replicate]
  split <;> rfl

theorem Rep.mul [Zero α] [Add α] [Mul α] (h : m.Rep L) {o : Sparse α} {M : Rows α} (ho : o.Rep M)
    (hMb : Bounded sizeMax M) (hLb : Bounded M.length L) (hsz : m.colSize = M.length) :
    ∃ m', m.mul (some o) = .ok m' ∧
      MulRel L.length o.colSize (Bounded o.colSize M) m' ((terms L M).foldl accRows (List.replicate L.length [])) := by
  unfold Sparse.mul
  obtain ⟨f, h1, h2, h3⟩ := rep_replicate (α := α) h.small o.colSize
  simp only [operand, Option.getD_some, ho.sizeRow, hsz, beq_self_eq_true, assert_true, Out.ok_bind, h.sizeRow, h1]
  have := loop_foldl (body := Sparse.mulRow m (some o)) (MulRel L.length o.colSize (Bounded o.colSize M))
    (fun N i => ((row L i).flatMap (elemTerms M i)).foldl accRows N) (List.range L.length)
    (s := f) (t := List.replicate L.length []) (by
      intro k hk t T hT
      have hk' : k < L.length := by simpa using hk
      obtain ⟨s', h4, h5⟩ := h.mulRow ho hMb hLb hk' hT
      exact ⟨s', h4, by simpa using h5⟩)
    ⟨h3, fun i => by rw [row_replicate_nil]; exact List.Pairwise.nil, by simp, fun _ => h2⟩
  rw [List.length_range] at this
  unfold terms
  rw [List.foldl_flatMap]
  exact this

theorem terms_lt [Mul α] {M : Rows α} {t : Nat × Nat × α} (h : t ∈ terms L M) : t.1 < L.length := by
  unfold terms elemTerms at h
  simp only [List.mem_flatMap, List.mem_range, List.mem_map] at h
  obtain ⟨i, hi, x, hx, y, hy, rfl⟩ := h
  exact hi

/-- The products that make up the element at `(i, j)`. -/
def prods [Mul α] (L M : Rows α) (i j : Nat) : List α :=
  (row L i).filterMap fun x => (entry M x.1 j).map (x.2 * ·)

theorem filterMap_lookup {β γ : Type} (f : β → γ) {r : List (Nat × β)} (hr : (keys r).Pairwise (· < ·)) (j : Nat) :
    ((r.filter fun y => decide (y.1 = j)).map fun y => f y.2) = ((r.lookup j).map f).toList := by
  induction r with
  | nil => rfl
  | cons x r ih =>
    simp only [keys, List.map_cons, List.pairwise_cons] at hr
    rw [lookup_cons']
    by_cases h : x.1 = j
    · rw [List.filter_cons_of_pos (by simpa using h), if_pos h.symm]
      have : r.filter (fun y => decide (y.1 = j)) = [] := by
        rw [List.filter_eq_nil_iff]
        intro y hy
        have := hr.1 y.1 (List.mem_map_of_mem (f := (·.1)) hy)
        simp; omega
      simp [this]
    · rw [List.filter_cons_of_neg (by simpa using h), if_neg (fun e => h e.symm)]
      exact ih hr.2

theorem filter_terms [Mul α] {M : Rows α} (hMs : Sorted M) (i j : Nat) :
    ((terms L M).filter fun t => decide (t.1 = i ∧ t.2.1 = j)).map (·.2.2) = prods L M i j := by
  have helem : ∀ (a : Nat) (x : Nat × α), ((elemTerms M a x).filter fun t => decide (t.1 = i ∧ t.2.1 = j)).map (·.2.2) =
      if a = i then ((entry M x.1 j).map (x.2 * ·)).toList else [] := by
    intro a x
    unfold elemTerms
    rw [List.filter_map, List.map_map]
    by_cases h : a = i
    · rw [if_pos h]
      have := filterMap_lookup (x.2 * ·) (hMs x.1) j
      unfold entry
      rw [← this]
      simp [h, Function.comp_def]
    · rw [if_neg h]
      simp [h]
  have hrow : ∀ a, (((row L a).flatMap (elemTerms M a)).filter fun t => decide (t.1 = i ∧ t.2.1 = j)).map (·.2.2) =
      if a = i then prods L M i j else [] := by
    intro a
    rw [List.filter_flatMap, List.map_flatMap]
    simp only [helem]
    split
    · rename_i h
      subst h
      unfold prods
      rw [List.filterMap_eq_flatMap_toList]
    · simp
  unfold terms
  rw [List.filter_flatMap, List.map_flatMap]
  simp only [hrow]
  by_cases hi : i < L.length
  · have : ∀ n, i < n → (List.range n).flatMap (fun a => if a = i then prods L M i j else []) = prods L M i j := by
      intro n
      induction n with
      | zero => omega
      | succ n ih =>
        intro h
        rw [List.range_succ, List.flatMap_append]
        by_cases hin : i = n
        · subst hin
          have : (List.range i).flatMap (fun a => if a = i then prods L M i j else []) = [] := by
            rw [List.flatMap_eq_nil_iff]
            intro a ha
            have := List.mem_range.mp ha
            rw [if_neg (by omega)]
          rw [this]
          simp
        · rw [ih (by omega)]
          simp; omega
    exact this _ hi
  · have h1 : prods L M i j = [] := by unfold prods; rw [row_of_ge (by omega)]; rfl
    rw [h1]
    simp

theorem foldl_accOpt [Add α] (x : α) (ws : List α) : ws.foldl accOpt (some x) = some (ws.foldl (· + ·) x) := by
  induction ws generalizing x with
  | nil => rfl
  | cons w ws ih => rw [List.foldl_cons, List.foldl_cons, ← ih]; rfl

/-- The sum of a list without an initial value. -/
def sumOpt [Add α] : List α → Option α
  | [] => none
  | w :: ws => some (ws.foldl (· + ·) w)

theorem entry_terms [Add α] [Mul α] {M : Rows α} (hMs : Sorted M) (i j : Nat) :
    entry ((terms L M).foldl accRows (List.replicate L.length [])) i j = sumOpt (prods L M i j) := by
  have hs : Sorted (List.replicate L.length ([] : List (Nat × α))) := fun i => by
    rw [row_replicate_nil]; exact List.Pairwise.nil
  rw [(foldl_accRows _ hs (fun t ht => by simpa using terms_lt ht)).2.2, filter_terms hMs]
  have : entry (List.replicate L.length ([] : List (Nat × α))) i j = none := by
    unfold entry; rw [row_replicate_nil]; rfl
  rw [this]
  cases prods L M i j with
  | nil => rfl
  | cons w ws => rw [List.foldl_cons]; exact foldl_accOpt w ws

/-! ### The same object on both sides -/

theorem Rep.mul_self [Zero α] [Add α] [Mul α] (h : m.Rep L) (hLb : Bounded L.length L) (hsz : m.colSize = L.length) :
    ∃ m', m.mul none = .ok m' ∧ m'.Rep (List.replicate L.length []) ∧ m'.colSize = L.length := by
  unfold Sparse.mul
  obtain ⟨f, h1, h2, h3⟩ := rep_replicate (α := α) h.small m.colSize
  simp only [operand, Option.getD_none, h.sizeRow, hsz, beq_self_eq_true, assert_true, Out.ok_bind]
  rw [hsz] at h1
  simp only [h1, Out.ok_bind]
  refine ⟨f, ?_, h3, by rw [h2, hsz]⟩
  obtain ⟨s', h4, h5⟩ := loop_inv (body := Sparse.mulRow m none) (n := L.length) (I := fun _ s => s = f) (s := f) rfl (by
    rintro i s hi rfl
    refine ⟨s, ?_, rfl⟩
    unfold Sparse.mulRow
    simp only [h.rowBegin hi, h.rowEnd hi, Out.ok_bind]
    have hp := psum_succ L hi
    have he : psum L (i + 1) - psum L i = L[i].length := by omega
    rw [he]
    obtain ⟨s', h6, h7⟩ := loop_inv (body := Sparse.mulElem m none i (psum L i)) (n := L[i].length)
      (I := fun _ t => t = s) (s := s) rfl (by
        rintro k t hk rfl
        refine ⟨t, ?_, rfl⟩
        unfold Sparse.mulElem
        have hcb := hLb i L[i][k] (by rw [row_of_lt hi]; exact List.getElem_mem _)
        have hcr : L[i][k].1 < (List.replicate L.length ([] : List (Nat × α))).length := by simpa using hcb
        have hp2 := psum_succ _ hcr
        simp only [operand, Option.getD_none, h.colAt hi hk, h3.rowBegin hcr, h3.rowEnd hcr, Out.ok_bind]
        have : psum (List.replicate L.length ([] : List (Nat × α))) (L[i][k].1 + 1) -
            psum (List.replicate L.length ([] : List (Nat × α))) L[i][k].1 = 0 := by
          rw [hp2]; simp
        rw [this]; rfl)
    rw [h6, h7])
  rw [h4, h5]

/-! ### Products that meet an element outside of the operand -/

/-- What each product keeps, whatever its operands. -/
def MulWeak (n : Nat) (s : Sparse α) : Prop := ∃ N, s.Rep N ∧ Sorted N ∧ N.length = n ∧ Bounded sizeMax N

theorem Rep.rowEnd_ub' {o : Sparse α} {M : Rows α} (ho : o.Rep M) {c : Nat} (hc : M.length ≤ c) (hs : c < sizeMax) :
    o.rowEnd c = .ub := by
  have hw : wrap (c + 1) = c + 1 := by unfold wrap; unfold sizeMax at hs; exact Nat.mod_eq_of_lt (by omega)
  unfold Sparse.rowEnd
  rw [hw, rd_ub]
  · rfl
  · rcases ho.offs with h' | ⟨_, h'⟩
    · rw [h']; simp; omega
    · rw [h']; simp

theorem rowBegin_cases (o : Sparse α) (c : Nat) : o.rowBegin c = .ub ∨ ∃ s, o.rowBegin c = .ok s := by
  unfold Sparse.rowBegin rd ptr
  cases o.off[c]? with
  | none => left; rfl
  | some x =>
    by_cases h : x ≤ o.cols.length ∧ x ≤ o.vals.length
    · right; exact ⟨(c, x), by simp [h]⟩
    · left; simp [h]

theorem bounded_replicate (c n : Nat) : Bounded c (List.replicate n ([] : List (Nat × α))) := by
  intro i x hx
  rw [row_replicate_nil] at hx
  simp at hx

theorem Rep.mul_or_ub [Zero α] [Add α] [Mul α] (h : m.Rep L) (hLb : Bounded sizeMax L) {o : Sparse α} {M : Rows α}
    (ho : o.Rep M) (hMb : Bounded sizeMax M) (hsz : m.colSize = M.length) :
    m.mul (some o) = .ub ∨ ∃ m', m.mul (some o) = .ok m' ∧ MulWeak L.length m' := by
  unfold Sparse.mul
  obtain ⟨f, h1, h2, h3⟩ := rep_replicate (α := α) h.small o.colSize
  simp only [operand, Option.getD_some, ho.sizeRow, hsz, beq_self_eq_true, assert_true, Out.ok_bind, h.sizeRow, h1]
  have h0 : MulWeak L.length f := ⟨_, h3, fun i => by rw [row_replicate_nil]; exact List.Pairwise.nil, by simp,
    bounded_replicate _ _⟩
  have key : ∀ n, n ≤ L.length → loop n (Sparse.mulRow m (some o)) f = .ub ∨
      ∃ s', loop n (Sparse.mulRow m (some o)) f = .ok s' ∧ MulWeak L.length s' := by
    intro n
    induction n with
    | zero => intro _; exact .inr ⟨f, rfl, h0⟩
    | succ i ih =>
      intro hi
      rcases ih (by omega) with h' | ⟨s, h', hP⟩
      · left; simp [loop, h']
      have hi : i < L.length := hi
      simp only [loop, h', Out.ok_bind]
      unfold Sparse.mulRow
      simp only [h.rowBegin hi, h.rowEnd hi, Out.ok_bind]
      have hp := psum_succ L hi
      have he : psum L (i + 1) - psum L i = L[i].length := by omega
      rw [he]
      have key2 : ∀ n, n ≤ L[i].length → loop n (Sparse.mulElem m (some o) i (psum L i)) s = .ub ∨
          ∃ s', loop n (Sparse.mulElem m (some o) i (psum L i)) s = .ok s' ∧ MulWeak L.length s' := by
        intro n
        induction n with
        | zero => intro _; exact .inr ⟨s, rfl, hP⟩
        | succ k ih =>
          intro hk
          rcases ih (by omega) with h'' | ⟨t, h'', hQ⟩
          · left; simp [loop, h'']
          have hk : k < L[i].length := hk
          simp only [loop, h'', Out.ok_bind]
          have hcs : L[i][k].1 < sizeMax := hLb i _ (by rw [row_of_lt hi]; exact List.getElem_mem _)
          unfold Sparse.mulElem
          simp only [operand, Option.getD_some, h.colAt hi hk, Out.ok_bind]
          by_cases hcM : L[i][k].1 < M.length
          · right
            have hp := psum_succ M hcM
            simp only [ho.rowBegin hcM, ho.rowEnd hcM, Out.ok_bind]
            refine loop_inv (fun _ => MulWeak L.length) hQ ?_
            rintro l s hl ⟨N, hN1, hN2, hN3, hN4⟩
            have hl' : l < M[L[i][k].1].length := by omega
            obtain ⟨s', h5, h6, h7⟩ := h.mulStep ho hMb hi hk hcM hl' hN1 hN2 (by omega)
            exact ⟨s', h5, _, h6, sorted_accRows hN2 _, by rw [accRows_length (by simp only; omega), hN3],
              bounded_accRows hN2 hN4 (hMb L[i][k].1 M[L[i][k].1][l] (by rw [row_of_lt hcM]; exact List.getElem_mem _))⟩
          · left
            rcases rowBegin_cases o L[i][k].1 with hb | ⟨p, hb⟩
            · rw [hb]; rfl
            · rw [hb, ho.rowEnd_ub' (by omega) hcs]; rfl
      exact key2 _ (Nat.le_refl _)
  exact key _ (Nat.le_refl _)

theorem Rep.mul_self_or_ub [Zero α] [Add α] [Mul α] (h : m.Rep L) (hLb : Bounded sizeMax L) (hsz : m.colSize = L.length) :
    m.mul none = .ub ∨ ∃ m', m.mul none = .ok m' ∧ MulWeak L.length m' := by
  by_cases hall : Bounded L.length L
  · right
    obtain ⟨m', h1, h2, h3⟩ := h.mul_self hall hsz
    exact ⟨m', h1, _, h2, fun i => by rw [row_replicate_nil]; exact List.Pairwise.nil, by simp, bounded_replicate _ _⟩
  · unfold Sparse.mul
    obtain ⟨f, h1, h2, h3⟩ := rep_replicate (α := α) h.small m.colSize
    simp only [operand, Option.getD_none, h.sizeRow, hsz, beq_self_eq_true, assert_true, Out.ok_bind]
    rw [hsz] at h1
    simp only [h1, Out.ok_bind]
    have h0 : MulWeak L.length f := ⟨_, h3, fun i => by rw [row_replicate_nil]; exact List.Pairwise.nil, by simp,
      bounded_replicate _ _⟩
    have key : ∀ n, n ≤ L.length → loop n (Sparse.mulRow m none) f = .ub ∨ loop n (Sparse.mulRow m none) f = .ok f := by
      intro n
      induction n with
      | zero => intro _; exact .inr rfl
      | succ i ih =>
        intro hi
        rcases ih (by omega) with h' | h'
        · left; simp [loop, h']
        have hi : i < L.length := hi
        simp only [loop, h', Out.ok_bind]
        unfold Sparse.mulRow
        simp only [h.rowBegin hi, h.rowEnd hi, Out.ok_bind]
        have hp := psum_succ L hi
        have he : psum L (i + 1) - psum L i = L[i].length := by omega
        rw [he]
        have key2 : ∀ n, n ≤ L[i].length → loop n (Sparse.mulElem m none i (psum L i)) f = .ub ∨
            loop n (Sparse.mulElem m none i (psum L i)) f = .ok f := by
          intro n
          induction n with
          | zero => intro _; exact .inr rfl
          | succ k ih =>
            intro hk
            rcases ih (by omega) with h'' | h''
            · left; simp [loop, h'']
            have hk : k < L[i].length := hk
            simp only [loop, h'', Out.ok_bind]
            have hcs : L[i][k].1 < sizeMax := hLb i _ (by rw [row_of_lt hi]; exact List.getElem_mem _)
            unfold Sparse.mulElem
            simp only [operand, Option.getD_none, h.colAt hi hk, Out.ok_bind]
            by_cases hcM : L[i][k].1 < L.length
            · right
              have hcr : L[i][k].1 < (List.replicate L.length ([] : List (Nat × α))).length := by simpa using hcM
              have hp2 := psum_succ _ hcr
              simp only [h3.rowBegin hcr, h3.rowEnd hcr, Out.ok_bind]
              have : psum (List.replicate L.length ([] : List (Nat × α))) (L[i][k].1 + 1) -
                  psum (List.replicate L.length ([] : List (Nat × α))) L[i][k].1 = 0 := by
                rw [hp2]; simp
              rw [this]; rfl
            · left
              rcases rowBegin_cases f L[i][k].1 with hb | ⟨p, hb⟩
              · rw [hb]; rfl
              · rw [hb, h3.rowEnd_ub' (by simpa using hcM) hcs]; rfl
        exact key2 _ (Nat.le_refl _)
    rcases key _ (Nat.le_refl _) with h' | h'
    · exact .inl h'
    · exact .inr ⟨f, h', h0⟩

/-! ### Matrix vector product -/

/-- Sum of the products of a row and a vector, in the order of the code. -/
def dotL [Zero α] [Add α] [Mul α] (r : List (Nat × α)) (x : List α) : α :=
  r.foldl (fun v e => v + e.2 * x.getD e.1 0) 0

theorem Rep.rowDot [Zero α] [Add α] [Mul α] (h : m.Rep L) {x : List α} (hb : Bounded x.length L) {i : Nat}
    (hi : i < L.length) : m.rowDot x i = .ok (dotL (row L i) x) := by
  unfold Sparse.rowDot
  simp only [h.rowBegin hi, h.rowEnd hi, Out.ok_bind]
  have hp := psum_succ L hi
  have he : psum L (i + 1) - psum L i = L[i].length := by omega
  rw [he, row_of_lt hi]
  obtain ⟨s', h1, h2⟩ := loop_foldl (fun (s t : α) => s = t) (fun v e => v + e.2 * x.getD e.1 0) L[i]
    (body := fun k value => do
      let a ← m.valAt (i, psum L i + k)
      let c ← m.colAt (i, psum L i + k)
      let b ← rd x c
      pure (value + a * b)) (s := 0) (t := 0) (by
      rintro k hk s t rfl
      have hc : L[i][k].1 < x.length := hb i _ (by rw [row_of_lt hi]; exact List.getElem_mem _)
      refine ⟨_, ?_, rfl⟩
      simp only [h.valAt hi hk, h.colAt hi hk, Out.ok_bind]
      rw [rd_ok hc]
      simp [hc]) rfl
  rw [h1, h2]
  rfl

theorem Rep.mulVec [Zero α] [Add α] [Mul α] (h : m.Rep L) {x : List α} (hb : Bounded m.colSize L)
    (hsz : m.colSize = x.length) {static : Bool} (hst : static = false ∨ x.length = 0 ∨ L.length = x.length) :
    m.mulVec static x = .ok ((List.range L.length).map fun i => dotL (row L i) x) := by
  unfold Sparse.mulVec
  have : (!static || x.length == 0 || m.sizeRow == x.length) = true := by
    rw [h.sizeRow]
    rcases hst with h | h | h <;> simp [h]
  simp only [hsz, beq_self_eq_true, assert_true, Out.ok_bind, this]
  rw [h.sizeRow]
  exact mapOut_ok (fun i hi => h.rowDot (by rw [← hsz]; exact hb) (by simpa using hi))

end Sparse
end Disa
