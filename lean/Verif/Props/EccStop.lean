import Verif.Props.GraphUtil

/-!
# Property C209: searches for distances that end before a stop vertex
-/

namespace Disa.Props

open Disa Spec Graph

/-- All marked vertices are below `n`. -/
def MarkedBelow (n : Nat) (m : List Nat) : Prop := ∀ (v k : Nat), m[v]? = some k → k ≠ sizeMax → v < n

theorem discover_cut {n f v : Nat} (hf : f < n) {q m : List Nat} {s' : List Nat × List Nat} (hm : MarkedBelow n m)
    (h : discover isMax (nextLevel f) (q, m) v = .ok s') :
    (n ≤ v ∧ discover isMax (nextLevel f) (q, m.take n) v = .ub) ∨
    (v < n ∧ discover isMax (nextLevel f) (q, m.take n) v = .ok (s'.1, s'.2.take n) ∧ MarkedBelow n s'.2) := by
  by_cases hv : v < n
  · right
    refine ⟨hv, ?_⟩
    by_cases hvm : v < m.length
    · have hvt : v < (m.take n).length := by rw [List.length_take]; omega
      have e : (m.take n)[v] = m[v] := List.getElem_take
      unfold discover at h ⊢
      simp only [rd_ok hvm, rd_ok hvt, Out.ok_bind, e] at h ⊢
      by_cases hx : isMax m[v] = true
      · rw [if_pos hx] at h ⊢
        cases hk : m[f]? with
        | none =>
          have : nextLevel f m = .ub := by
            unfold nextLevel
            rw [rd_ub (List.getElem?_eq_none_iff.mp hk)]
            rfl
          rw [this] at h
          cases h
        | some k =>
          have h1 : nextLevel f m = .ok (wrap (k + 1)) := by simp [nextLevel, rd_of_some hk]
          have h2 : nextLevel f (m.take n) = .ok (wrap (k + 1)) := by
            have : (m.take n)[f]? = some k := by rw [List.getElem?_take_of_lt hf, hk]
            simp [nextLevel, rd_of_some this]
          rw [h1] at h
          rw [h2]
          simp only [Out.ok_bind, wr_ok hvm, wr_ok hvt, Out.pure_eq] at h ⊢
          obtain rfl := Out.ok.inj h
          refine ⟨by simp only [List.take_set], fun w j hj hjm => ?_⟩
          simp only [List.getElem?_set] at hj
          by_cases hw : v = w
          · omega
          · rw [if_neg hw] at hj
            exact hm w j hj hjm
      · rw [if_neg hx] at h ⊢
        obtain rfl := Out.ok.inj h
        exact ⟨rfl, hm⟩
    · unfold discover at h
      simp only [rd_ub (show m.length ≤ v by omega)] at h
      cases h
  · left
    refine ⟨by omega, ?_⟩
    unfold discover
    simp only
    rw [rd_ub (by rw [List.length_take]; omega)]
    rfl

theorem discover_fold_cut {n f : Nat} (hf : f < n) (l : List Nat) {q m : List Nat} {s' : List Nat × List Nat} (hm : MarkedBelow n m)
    (h : l.foldlM (discover isMax (nextLevel f)) (q, m) = .ok s') :
    ((∃ v ∈ l, n ≤ v) ∧ l.foldlM (discover isMax (nextLevel f)) (q, m.take n) = .ub) ∨
    (l.foldlM (discover isMax (nextLevel f)) (q, m.take n) = .ok (s'.1, s'.2.take n) ∧ MarkedBelow n s'.2) := by
  induction l generalizing q m with
  | nil =>
    obtain rfl := Out.ok.inj h
    exact .inr ⟨rfl, hm⟩
  | cons a l ih =>
    rw [List.foldlM_cons] at h ⊢
    cases h1 : discover isMax (nextLevel f) (q, m) a with
    | ok t =>
      rw [h1, Out.ok_bind] at h
      rcases discover_cut hf hm h1 with ⟨h2, h3⟩ | ⟨-, h3, h4⟩
      · exact .inl ⟨⟨a, by simp, h2⟩, by rw [h3]; rfl⟩
      · rw [h3, Out.ok_bind]
        rcases ih h4 h with ⟨⟨v, hv, hv'⟩, h5⟩ | h5
        · exact .inl ⟨⟨v, by simp [hv], hv'⟩, h5⟩
        · exact .inr h5
    | _ => rw [h1] at h; cases h

theorem while_cut {d : Bool} {g : Graph} {L : List (List Nat)} (hr : g.Rep L) (hg : Good d L) (hn : L.length < sizeMax)
    {start n : Nat} (hst : start < L.length) (fuel : Nat) {s s' : List Nat × List Nat} (hI : EInv L start s) (hm : MarkedBelow n s.2)
    (h : whileFuel (fun s : List Nat × List Nat => !s.1.isEmpty) (g.eccStep sizeMax) fuel s = .ok s') :
    ((∃ v, n ≤ v ∧ Reached (rowRel L) (· = start) v) ∧
      whileFuel (fun s : List Nat × List Nat => !s.1.isEmpty) (g.eccStep n) fuel (s.1, s.2.take n) = .ub) ∨
    (whileFuel (fun s : List Nat × List Nat => !s.1.isEmpty) (g.eccStep n) fuel (s.1, s.2.take n) = .ok (s'.1, s'.2.take n) ∧
      MarkedBelow n s'.2 ∧ EInv L start s' ∧ s'.1 = []) := by
  induction fuel generalizing s with
  | zero =>
    unfold whileFuel at h ⊢
    by_cases hc : (!s.1.isEmpty) = true
    · simp only [hc, if_true] at h
      cases h
    · simp only [hc] at h ⊢
      obtain rfl := Out.ok.inj h
      exact .inr ⟨rfl, hm, hI, by simpa using hc⟩
  | succ fuel ih =>
    unfold whileFuel at h ⊢
    by_cases hc : (!s.1.isEmpty) = true
    · simp only [hc, if_true] at h ⊢
      obtain ⟨t, h1, h2, -⟩ := eccStep_inv hr hg hn hst hI hc
      rw [h1, Out.ok_bind] at h
      obtain ⟨q, m⟩ := s
      cases q with
      | nil => simp at hc
      | cons f rest =>
        obtain ⟨out, hb⟩ := hI.bfs
        obtain ⟨k, hkm, hk⟩ := (hb.mem f).mpr (.inr (by simp))
        have hd := hI.val f k hk hkm
        have hfn : f < n := hm f k hk hkm
        have hfL : f < L.length := by
          have := (List.getElem?_eq_some_iff.mp hk).1
          rwa [hI.len] at this
        have e1 : g.eccStep sizeMax (f :: rest, m) = (row L f).foldlM (discover isMax (nextLevel f)) (rest, m) := by
          unfold eccStep
          simp only [if_neg (show ¬ f ≥ sizeMax by omega), hr.nbrs hfL, Out.ok_bind]
        have e2 : g.eccStep n (f :: rest, m.take n) = (row L f).foldlM (discover isMax (nextLevel f)) (rest, m.take n) := by
          unfold eccStep
          simp only [if_neg (show ¬ f ≥ n by omega), hr.nbrs hfL, Out.ok_bind]
        rw [e1] at h1
        simp only [e2]
        rcases discover_fold_cut hfn _ hm h1 with ⟨⟨v, hv, hv'⟩, h3⟩ | ⟨h3, h4⟩
        · left
          refine ⟨⟨v, hv', ?_⟩, by rw [h3]; rfl⟩
          obtain ⟨⟨a, ha, hw⟩, -⟩ := hd
          exact ⟨k + 1, a, ha, hw.append (Walk.single hv)⟩
        · rw [h3, Out.ok_bind]
          exact ih h2 h4 h
    · simp only [hc] at h ⊢
      obtain rfl := Out.ok.inj h
      exact .inr ⟨rfl, hm, hI, by simpa using hc⟩

theorem ecc_start {L : List (List Nat)} {start : Nat} (hs : start < L.length) :
    EInv L start ([start], (List.replicate L.length sizeMax).set start 0) := by
  have hget : ∀ (v : Nat), ((List.replicate L.length sizeMax).set start 0)[v]? =
      if v = start then some 0 else if v < L.length then some sizeMax else none := by
    intro v
    rw [List.getElem?_set, List.getElem?_replicate]
    by_cases h : start = v
    · subst h; simp [hs]
    · simp [h, Ne.symm h]
  have hvis : (fun (v : Nat) => ∃ k, k ≠ sizeMax ∧ ((List.replicate L.length sizeMax).set start 0)[v]? = some k) = (· = start) := by
    funext v
    apply propext
    rw [hget]
    constructor
    · rintro ⟨k, hk, h⟩
      by_contra hc
      rw [if_neg hc] at h
      split at h
      · exact hk (Option.some.inj h).symm
      · cases h
    · rintro rfl; exact ⟨0, by decide, by simp⟩
  refine ⟨by simp, ⟨[], ?_⟩, ?_⟩
  · simp only [hvis]; exact BInv.start start _
  · intro v k hk hks
    simp only [hget] at hk
    split at hk
    · rename_i h; subst h
      rw [← Option.some.inj hk]; exact isDist_zero.mpr rfl
    · split at hk
      · exact absurd (Option.some.inj hk).symm hks
      · cases hk

/-- The call with the assertions passed. -/
theorem eccVertex_run {g : Graph} {L : List (List Nat)} (hr : g.Rep L) (hn : L.length < sizeMax) {start stop n : Nat}
    (hs : start < L.length) (hsn : start < n) (hst : start ≤ stop) (he : stop = sizeMax ∨ stop ≤ L.length)
    (hmin : (if L.length ≤ stop then L.length else stop) = n) (old : List Nat) :
    g.eccVertex start old stop =
      (whileFuel (fun s : List Nat × List Nat => !s.1.isEmpty) (g.eccStep stop) (1 + L.length)
        ([start], (List.replicate n sizeMax).set start 0) >>= fun s => .ok s.2) := by
  unfold eccVertex
  rw [hr.empty, decide_eq_false (by omega), hr.sizeVertex]
  have h2 : (stop == sizeMax || decide (stop ≤ L.length)) = true := by
    rcases he with h | h <;> simp [h]
  have h4 : wr (List.replicate n sizeMax) start 0 = .ok ((List.replicate n sizeMax).set start 0) :=
    wr_ok (by simpa using hsn)
  simp only [Bool.not_false, assert_true, Out.ok_bind, hs, decide_true, hst, h2, hmin, ecc_resize, h4, Out.pure_eq]

theorem eccVertex_cut {d : Bool} {g : Graph} (h : Reachable d g) {start stop : Nat} (hs : start < stop) (he : stop ≤ g.sizeVertex)
    (old : List Nat) :
    ((∃ v, stop ≤ v ∧ Reached (Adj g) (· = start) v) ∧ g.eccVertex start old stop = .ub) ∨
    ((∀ v, Reached (Adj g) (· = start) v → v < stop) ∧
      ∃ out, g.eccVertex start old sizeMax = .ok out ∧ g.eccVertex start old stop = .ok (out.take stop)) := by
  have hn := reach_small h
  have hs' : start < g.sizeVertex := by omega
  obtain ⟨out, h1, h2, h3⟩ := c54_eccentricity_vertex d g h start hs' old
  obtain ⟨L, hr, hg⟩ := reach_rep h
  rw [hr.sizeVertex] at hn he hs' h2 h3
  rw [hr.adj_eq] at h3 ⊢
  have h1' := h1
  rw [eccVertex_run hr hn hs' hs' (by omega) (.inl rfl) (if_pos hn.le)] at h1
  rw [eccVertex_run hr hn hs' hs hs.le (.inr he) (by split <;> omega)]
  cases h4 : whileFuel (fun s : List Nat × List Nat => !s.1.isEmpty) (g.eccStep sizeMax) (1 + L.length)
      ([start], (List.replicate L.length sizeMax).set start 0) with
  | ok s' =>
    rw [h4, Out.ok_bind] at h1
    obtain rfl := Out.ok.inj h1
    have hm : MarkedBelow stop ((List.replicate L.length sizeMax).set start 0) := by
      intro v k hk hkm
      rw [List.getElem?_set] at hk
      by_cases hv : start = v
      · omega
      · rw [if_neg hv, List.getElem?_replicate] at hk
        split at hk
        · exact absurd (Option.some.inj hk).symm hkm
        · cases hk
    have e : ((List.replicate L.length sizeMax).set start 0).take stop = (List.replicate stop sizeMax).set start 0 := by
      rw [List.take_set, List.take_replicate, min_eq_left he]
    rcases while_cut hr hg hn hs' _ (ecc_start hs') hm h4 with ⟨h5, h6⟩ | ⟨h6, h7, -, -⟩
    · rw [e] at h6
      exact .inl ⟨h5, by rw [h6]; rfl⟩
    · rw [e] at h6
      refine .inr ⟨fun v hv => ?_, s'.2, h1', by rw [h6]; rfl⟩
      obtain ⟨k, hk⟩ := reached_iff.mp hv
      have hkL := dist_lt hg hs' hk
      have hvL : v < L.length := by
        obtain ⟨⟨a, rfl, hw⟩, -⟩ := hk
        cases k with
        | zero => exact (show a = v from hw) ▸ hs'
        | succ k =>
          obtain ⟨u, -, hu⟩ := hw
          exact hg.range u v hu
      rcases h3 v hvL with ⟨j, hj, hjo⟩ | ⟨-, hno⟩
      · have := dist_lt hg hs' hj
        exact h7 v j hjo (by omega)
      · exact absurd hv hno
  | _ => rw [h4] at h1; cases h1

/-! ### C209 -/

/-- C209: `eccentricity_vertex_breadth_first` never accesses memory out of bounds, whatever its stop vertex is. -/
def C209 : Prop := ∀ (d : Bool) (g : Graph) (start stop : Nat) (old : List Nat), Reachable d g → g.eccVertex start old stop ≠ .ub

/-- C209: the calls that exit. -/
theorem c209_exit_iff (d : Bool) (g : Graph) (h : Reachable d g) (start stop : Nat) (old : List Nat) :
    g.eccVertex start old stop = .exit 1 ↔ g.sizeVertex ≤ start ∨ stop < start ∨ (g.sizeVertex < stop ∧ stop ≠ sizeMax) := by
  have hn := reach_small h
  constructor
  · intro hx
    by_contra hc
    push Not at hc
    obtain ⟨h1, h2, h3⟩ := hc
    by_cases hm : stop = sizeMax
    · subst hm
      obtain ⟨out, h4, -⟩ := c54_eccentricity_vertex d g h start h1 old
      rw [h4] at hx
      cases hx
    · have h5 : stop ≤ g.sizeVertex := by
        by_contra h6
        exact hm (h3 (by omega))
      rcases Nat.lt_or_eq_of_le h2 with h6 | h6
      · rcases eccVertex_cut h h6 h5 old with ⟨-, h7⟩ | ⟨-, out, -, h7⟩ <;> (rw [h7] at hx; cases hx)
      · subst h6
        have : g.eccVertex start old start = .ub := by
          obtain ⟨L, hr, hg⟩ := reach_rep h
          rw [hr.sizeVertex] at h1 h5
          unfold eccVertex
          rw [hr.empty, decide_eq_false (by omega), hr.sizeVertex]
          simp only [Bool.not_false, assert_true, Out.ok_bind, h1, decide_true, le_refl, h5, Bool.or_true,
            if_neg (show ¬ L.length ≤ start by omega), ecc_resize]
          rw [wr_ub (by simp)]
          rfl
        rw [this] at hx
        cases hx
  · intro hx
    unfold eccVertex
    by_cases h1 : g.empty = true
    · simp [h1]
    · by_cases h2 : start < g.sizeVertex
      · by_cases h3 : start ≤ stop
        · have h4 : (stop == sizeMax || decide (stop ≤ g.sizeVertex)) = false := by
            have h5 : g.sizeVertex < stop ∧ stop ≠ sizeMax := by
              rcases hx with h5 | h5 | h5
              · omega
              · omega
              · exact h5
            simp [h5.2, h5.1]
          simp [h1, h2, h3, h4]
        · simp [h1, h2, h3]
      · simp [h1, h2]

/-- C209: the calls that access memory out of bounds: those where a vertex that can be reached from the start vertex does not
precede the stop vertex, the start vertex itself included. -/
theorem c209_ub_iff (d : Bool) (g : Graph) (h : Reachable d g) (start stop : Nat) (old : List Nat) :
    g.eccVertex start old stop = .ub ↔
      start < g.sizeVertex ∧ start ≤ stop ∧ stop ≤ g.sizeVertex ∧ ∃ v, stop ≤ v ∧ Reached (Adj g) (· = start) v := by
  have hn := reach_small h
  constructor
  · intro hx
    have hne : ¬ g.eccVertex start old stop = .exit 1 := by rw [hx]; simp
    rw [c209_exit_iff d g h] at hne
    push Not at hne
    obtain ⟨h1, h2, h3⟩ := hne
    have h4 : stop ≤ g.sizeVertex := by
      by_contra h5
      obtain rfl := h3 (by omega)
      obtain ⟨out, h6, -⟩ := c54_eccentricity_vertex d g h start h1 old
      rw [h6] at hx
      cases hx
    refine ⟨h1, h2, h4, ?_⟩
    rcases Nat.lt_or_eq_of_le h2 with h6 | h6
    · rcases eccVertex_cut h h6 h4 old with ⟨h7, -⟩ | ⟨-, out, -, h7⟩
      · exact h7
      · rw [h7] at hx
        cases hx
    · exact ⟨start, by omega, 0, start, rfl, rfl⟩
  · rintro ⟨h1, h2, h4, v, hv, hr⟩
    rcases Nat.lt_or_eq_of_le h2 with h6 | h6
    · rcases eccVertex_cut h h6 h4 old with ⟨-, h7⟩ | ⟨h7, -⟩
      · exact h7
      · have := h7 v hr
        omega
    · subst h6
      obtain ⟨L, hr, hg⟩ := reach_rep h
      rw [hr.sizeVertex] at h1 h4
      unfold eccVertex
      rw [hr.empty, decide_eq_false (by omega), hr.sizeVertex]
      simp only [Bool.not_false, assert_true, Out.ok_bind, h1, decide_true, le_refl, h4, Bool.or_true,
        if_neg (show ¬ L.length ≤ start by omega), ecc_resize]
      rw [wr_ub (by simp)]
      rfl

/-- C209: all other calls return the distances of the vertices that precede the stop vertex. -/
theorem c209_distances_partial (d : Bool) (g : Graph) (h : Reachable d g) (start stop : Nat) (old : List Nat) (hs : start < stop)
    (he : stop ≤ g.sizeVertex) (hr : ∀ v, Reached (Adj g) (· = start) v → v < stop) :
    ∃ out, g.eccVertex start old stop = .ok out ∧ out.length = stop ∧ ∀ v, v < stop →
      (∃ k, IsDist (Adj g) (· = start) v k ∧ out[v]? = some k) ∨
      (out[v]? = some sizeMax ∧ ¬ Reached (Adj g) (· = start) v) := by
  rcases eccVertex_cut h hs he old with ⟨⟨v, hv, hv'⟩, -⟩ | ⟨-, out, h1, h2⟩
  · have := hr v hv'
    omega
  · obtain ⟨out', h3, h4, h5⟩ := c54_eccentricity_vertex d g h start (by omega) old
    obtain rfl := Out.ok.inj (h1.symm.trans h3)
    refine ⟨_, h2, by rw [List.length_take]; omega, fun v hv => ?_⟩
    rw [List.getElem?_take_of_lt hv]
    exact h5 v (by omega)

theorem c209_violated : ¬ C209 := fun hc =>
  hc false searchGraph 0 2 [] searchGraph_reachable (by decide +kernel)

/-- The search from 1 cannot leave the first four vertices; one that stops before vertex 3 reads past the end, as does one whose
start and stop vertices agree. -/
example : searchGraph.eccVertex 1 [7, 7] 4 = .ok [1, 0, 1, 1] ∧ searchGraph.eccVertex 1 [7, 7] 3 = .ub ∧
    searchGraph.eccVertex 6 [] 6 = .ub ∧ searchGraph.eccVertex 6 [] 5 = .exit 1 := by decide +kernel

end Disa.Props
