import Verif.Graph.SubInv
import Verif.Props.Graph

/-!
# Properties C23, C24 and C59 to C62: subgraphs

`hash` is `std::hash<std::size_t>`, about which nothing is assumed.
-/

namespace Disa.Props

open Disa Spec Graph

/-- A path of three vertices, and two disconnected edges. -/
def path3 : Graph := ⟨[1, 0, 2, 1], [0, 1, 3, 4]⟩
def pairs4 : Graph := ⟨[1, 0, 3, 2], [0, 1, 2, 3, 4]⟩

theorem path3_reachable : Reachable false path3 :=
  ⟨[.insert (0, 1), .insert (1, 2)], by simp [Op.Valid, sizeMax], by decide⟩

theorem pairs4_reachable : Reachable false pairs4 :=
  ⟨[.insert (0, 1), .insert (2, 3)], by simp [Op.Valid, sizeMax], by decide⟩

/-! ### C23 -/

theorem c23_aux {parent : Graph} (hp : Reachable false parent) (hash : Nat → Nat)
    {part : List Nat} (hs : part.Pairwise (· < ·)) (hlt : ∀ v ∈ part, v < parent.sizeVertex) :
    ∃ (del : Nat → Bool) (x : Nat), (∀ v, v < parent.sizeVertex → (del v = false ↔ v ∈ part)) ∧
      parent.hash hash false = .ok x ∧
      Subgraph.make hash parent part 0 = (parent.eraseIf del >>= fun g => .ok ⟨g, part, [], x⟩) := by
  obtain ⟨x, hx⟩ := Subgraph.hash_ok hp hash
  obtain ⟨del, g2l, h1, h2⟩ := Subgraph.make_eq hp hash hx (Subgraph.sorted_chain hs) (Subgraph.sorted_length hs hlt) hlt 0
  exact ⟨del, x, h1, hx, h2⟩

/-- C23: the subgraph made from a strictly increasing list of vertices is the induced subgraph, numbered as listed. -/
theorem c23_induced (parent : Graph) (hp : Reachable false parent) (hash : Nat → Nat)
    (part : List Nat) (hs : part.Pairwise (· < ·)) (hlt : ∀ v ∈ part, v < parent.sizeVertex) (s : Subgraph)
    (hm : Subgraph.make hash parent part 0 = .ok s) :
    s.sizeVertex = part.length ∧
    (∀ (i v : Nat), part[i]? = some v → s.localGlobal i = .ok v ∧ s.isLocal i = .ok true ∧ s.vertexLevel i = .ok 0) ∧
    ∀ (i j u v : Nat), part[i]? = some u → part[j]? = some v → (Adj s.graph i j ↔ Adj parent u v) := by
  have hn := reach_small hp
  obtain ⟨del, x, h1, hx, h2⟩ := c23_aux hp hash hs hlt
  rw [h2] at hm
  obtain ⟨g, he, hg⟩ := Out.bind_eq_ok.mp hm
  cases hg
  have hI := Subgraph.make_inv hp hs hlt h1 he x
  refine ⟨hI.size, ?_, hI.adj⟩
  intro i v hv
  have hi : i < Subgraph.sizeVertex ⟨g, part, [], x⟩ := by
    have := (List.getElem?_eq_some_iff.mp hv).1
    have hsz : Subgraph.sizeVertex ⟨g, part, [], x⟩ = part.length := hI.size
    omega
  refine ⟨?_, ?_, ?_⟩
  · simp only [Subgraph.localGlobal, hi, decide_true, assert_true, Out.ok_bind]
    exact rd_of_some hv
  · simp only [Subgraph.isLocal, hi, decide_true, assert_true, Out.ok_bind]; rfl
  · simp only [Subgraph.vertexLevel, hi, decide_true, assert_true, Out.ok_bind]; rfl

/-- C23: such a list is never rejected; the call returns unless `erase_if` reads past the stored adjacencies. -/
theorem c23_returns (parent : Graph) (hp : Reachable false parent) (hash : Nat → Nat)
    (part : List Nat) (hs : part.Pairwise (· < ·)) (hlt : ∀ v ∈ part, v < parent.sizeVertex) :
    (Subgraph.make hash parent part 0 = .ub ∧ (parent = Graph.new ∨ ∃ v ∈ part, 2 * parent.sizeEdge false ≤ v)) ∨
    ((∃ s, Subgraph.make hash parent part 0 = .ok s) ∧ parent ≠ Graph.new ∧ ∀ v ∈ part, v < 2 * parent.sizeEdge false) := by
  obtain ⟨del, x, h1, hx, h2⟩ := c23_aux hp hash hs hlt
  rw [h2]
  have hub := c05_erase_if_ub_iff false parent hp del
  have hcond : (∃ v, v < parent.sizeVertex ∧ del v = false ∧
      (if false then parent.sizeEdge false else 2 * parent.sizeEdge false) ≤ v) ↔
      ∃ v ∈ part, 2 * parent.sizeEdge false ≤ v := by
    simp only [Bool.false_eq_true, if_false]
    constructor
    · rintro ⟨v, a, b, c⟩; exact ⟨v, (h1 v a).mp b, c⟩
    · rintro ⟨v, a, b⟩; exact ⟨v, hlt v a, (h1 v (hlt v a)).mpr a, b⟩
  rw [hcond] at hub
  by_cases hb : parent = Graph.new ∨ ∃ v ∈ part, 2 * parent.sizeEdge false ≤ v
  · left
    rw [hub.mpr hb]
    exact ⟨rfl, hb⟩
  · right
    have hb' := hb
    rw [not_or] at hb
    simp only [not_exists, not_and, Nat.not_le] at hb
    refine ⟨?_, hb⟩
    obtain ⟨g, hg⟩ := Graph.eraseIf_total hp del (fun h => hb' (hub.mp h))
    exact ⟨_, by rw [hg]; rfl⟩

/-- C23: everything with a repeated neighbouring entry, too many entries or an entry out of range is rejected. -/
theorem c23_rejects (parent : Graph) (hash : Nat → Nat) (part : List Nat) (e : Nat)
    (hb : ¬ part.IsChain (· ≠ ·) ∨ parent.sizeVertex < part.length ∨ ∃ v ∈ part, parent.sizeVertex ≤ v) :
    Subgraph.make hash parent part e = .exit 1 := Subgraph.make_exit hash hb

/-- C23 needs the list to be increasing: for others the mapping does not fit the local graph. -/
theorem c23_unsorted : ∃ (parent : Graph) (part : List Nat), Reachable false parent ∧ part.Nodup ∧
    (∀ v ∈ part, v < parent.sizeVertex) ∧ ∀ hash, ∃ s, Subgraph.make hash parent part 0 = .ok s ∧
      s.localGlobal 1 = .ok 0 ∧ s.localGlobal 2 = .ok 2 ∧ Adj s.graph 1 2 ∧ ¬ Adj parent 0 2 := by
  refine ⟨path3, [1, 0, 2], path3_reachable, by decide, by decide, fun hash => ?_⟩
  obtain ⟨x, hx⟩ := Subgraph.hash_ok path3_reachable hash
  refine ⟨⟨path3, [1, 0, 2], [], x⟩, ?_, rfl, rfl, ⟨[0, 2], rfl, by decide⟩, ?_⟩
  · unfold Subgraph.make
    rw [hx]
    rfl
  · rintro ⟨r, hr, hm⟩
    have : Graph.nbrs path3 0 = .ok [1] := rfl
    rw [this] at hr; cases hr; simp at hm

example : Subgraph.make id path3 [1, 2] 0 = .ok ⟨⟨[1, 0], [0, 1, 2]⟩, [1, 2], [], 3 ^^^ 2 ^^^ 1 ^^^ 1⟩ ∧
    Subgraph.make id path3 [0, 3] 0 = .exit 1 ∧ Subgraph.make id path3 [0, 0] 0 = .exit 1 := by decide +kernel

/-! ### C24 -/

theorem reach_inv {parent : Graph} (hp : Reachable false parent) {hash : Nat → Nat}
    {x : Nat} (hx : parent.hash hash false = .ok x) {part : List Nat} (hs : part.Pairwise (· < ·))
    (hlt : ∀ v ∈ part, v < parent.sizeVertex) {B m : Nat} (hB : B < sizeMax) {s : Subgraph}
    (hr : SubReach hash parent part B m s) : Subgraph.SubInv parent (· ∈ part) m s ∧ s.hashParent = x := by
  have hn := reach_small hp
  induction hr with
  | @make e s he hm =>
    obtain ⟨del, g2l, h1, h2⟩ := Subgraph.make_eq hp hash hx (Subgraph.sorted_chain hs) (Subgraph.sorted_length hs hlt) hlt e
    rw [h2] at hm
    obtain ⟨g, h3, h4⟩ := Out.bind_eq_ok.mp hm
    have hI := Subgraph.make_inv hp hs hlt h1 h3 x
    by_cases h0 : e = 0
    · subst h0
      simp only [bne_self_eq_false, Bool.false_eq_true, if_false, Out.pure_eq, Out.ok.injEq] at h4
      subst h4
      exact ⟨hI, rfl⟩
    · have hb : (e != 0) = true := by simpa using h0
      simp only [hb, if_true] at h4
      obtain ⟨⟨s', gl'⟩, h5, h6⟩ := Out.bind_eq_ok.mp h4
      cases h6
      obtain ⟨a, b, _⟩ := Subgraph.updateLevels_inv hp hI hash hx rfl (by omega) h5
      exact ⟨a, b⟩
  | levels _ hM hu ih =>
    obtain ⟨a, b, _⟩ := Subgraph.updateLevels_inv hp ih.1 hash hx ih.2 (by omega) hu
    exact ⟨a, b⟩
  | reorder _ hperm ho ih =>
    obtain ⟨s', h1, h2, h3, _⟩ := Subgraph.reorder_inv ih.1 hperm
    rw [h1] at ho
    cases ho
    exact ⟨h2, h3.trans ih.2⟩

/-- The full C24.  It is false, see `c24_violated`. -/
def C24 : Prop :=
  ∀ (parent : Graph) (hash : Nat → Nat) (part : List Nat) (m : Nat) (s : Subgraph), Reachable false parent →
    part.Pairwise (· < ·) → (∀ v ∈ part, v < parent.sizeVertex) →
    SubReach hash parent part sizeMax m s → ∃ f, IsLevelSubgraph parent (· ∈ part) m s f

/-- C24 does not hold: with the largest level count vertices that cannot be reached are added too. -/
theorem c24_violated : ¬ C24 := by
  intro h
  have hr : SubReach id pairs4 [0] sizeMax sizeMax
      ⟨⟨[1, 0, 3, 2], [0, 1, 2, 3, 4]⟩, [0, 1, 2, 3], [0, 1, sizeMax, sizeMax], 4 ^^^ 2 ^^^ 1 ^^^ 1⟩ :=
    .make (Nat.le_refl _) (by decide +kernel)
  obtain ⟨f, hf⟩ := h pairs4 id [0] sizeMax _ pairs4_reachable (by decide) (by decide) hr
  have h2 : f 2 = 2 := by
    have := hf.mapping 2 (by decide)
    exact (Out.ok.inj (this.symm.trans (by decide : _ = Out.ok 2)))
  obtain ⟨k, _, ⟨⟨v, hv, hw⟩, _⟩⟩ := (hf.vertices 2).mp ⟨2, by decide, h2⟩
  have hv0 : v = 0 := by simpa using hv
  subst hv0
  have key : ∀ (k v : Nat), Walk (Adj pairs4) k 0 v → v < 2 := by
    intro k
    induction k with
    | zero => intro v hw; cases hw; omega
    | succ k ih =>
      intro v hw
      obtain ⟨u, hw', r, hr, hm⟩ := hw
      have hu := ih _ hw'
      have : u = 0 ∨ u = 1 := by omega
      rcases this with rfl | rfl
      · have : Graph.nbrs pairs4 0 = .ok [1] := rfl
        rw [this] at hr; cases hr; simp at hm; omega
      · have : Graph.nbrs pairs4 1 = .ok [0] := rfl
        rw [this] at hr; cases hr; simp at hm; omega
  have := key k 2 hw
  omega

/-- C24 for level counts below the largest one.  Missing from the full statement: the level count `2^64 - 1`. -/
theorem c24_update_levels_partial (parent : Graph) (hash : Nat → Nat) (part : List Nat) (m : Nat) (s : Subgraph)
    (hp : Reachable false parent) (hs : part.Pairwise (· < ·))
    (hlt : ∀ v ∈ part, v < parent.sizeVertex) (hr : SubReach hash parent part (sizeMax - 1) m s) :
    ∃ f, IsLevelSubgraph parent (· ∈ part) m s f := by
  obtain ⟨x, hx⟩ := Subgraph.hash_ok hp hash
  exact ⟨_, (reach_inv hp hx hs hlt (by decide) hr).1.spec⟩

/-- C24: the mapping `update_levels` hands out is the inverse of `local_global`. -/
theorem c24_global_local_partial (parent : Graph) (hash : Nat → Nat) (part : List Nat) (m : Nat) (s : Subgraph)
    (hp : Reachable false parent) (hs : part.Pairwise (· < ·))
    (hlt : ∀ v ∈ part, v < parent.sizeVertex) (hr : SubReach hash parent part (sizeMax - 1) m s)
    (M : Nat) (hM : M < sizeMax) (old : List Nat) (s' : Subgraph) (gl : Option (List Nat))
    (hu : s.updateLevels hash parent M (some old) = .ok (s', gl)) :
    ∃ map, gl = some map ∧ IsGlobalLocal parent s' map := by
  obtain ⟨x, hx⟩ := Subgraph.hash_ok hp hash
  obtain ⟨h1, h2⟩ := reach_inv hp hx hs hlt (by decide) hr
  obtain ⟨h3, _, _, h4⟩ := Subgraph.updateLevels_inv hp h1 hash hx h2 hM hu
  obtain ⟨y, h5, h6⟩ := h4 rfl
  exact ⟨y, h5, Subgraph.Scatter.spec h3 h6⟩

/-- Growing and shrinking a path of three vertices. -/
example : ∃ s, SubReach id path3 [0] (sizeMax - 1) 1 s ∧ s.sizeVertex = 2 ∧ s.vertexLevel 1 = .ok 1 :=
  ⟨⟨⟨[1, 0], [0, 1, 2]⟩, [0, 1], [0, 1], 3 ^^^ 2 ^^^ 1 ^^^ 1⟩,
    .levels (m := 2) (s := ⟨path3, [0, 1, 2], [0, 1, 2], 3 ^^^ 2 ^^^ 1 ^^^ 1⟩) (gl := none) (gl' := none)
      (.make (by decide) (by decide +kernel)) (by decide) (by decide +kernel), rfl, rfl⟩

/-! ### C59 -/

/-- The full C59.  It is false, see `c59_violated` and `c59_violated_ub`. -/
def C59 : Prop :=
  ∀ (parent : Graph) (hash : Nat → Nat) (part : List Nat) (m : Nat) (s : Subgraph), Reachable false parent →
    part.Pairwise (· < ·) → (∀ v ∈ part, v < parent.sizeVertex) →
    SubReach hash parent part (sizeMax - 1) m s → ∀ M, M < sizeMax → ∃ p, s.updateLevels hash parent M none = .ok p

/-- C59 does not hold: a subgraph that has reached the far end of a path cannot be given more levels. -/
theorem c59_violated : ¬ C59 := by
  intro h
  have hr : SubReach id path3 [0] (sizeMax - 1) 2 ⟨path3, [0, 1, 2], [0, 1, 2], 3 ^^^ 2 ^^^ 1 ^^^ 1⟩ :=
    .make (by decide) (by decide +kernel)
  obtain ⟨p, hp⟩ := h path3 id [0] 2 _ path3_reachable (by decide) (by decide) hr 3 (by decide)
  have : Subgraph.updateLevels id ⟨path3, [0, 1, 2], [0, 1, 2], 3 ^^^ 2 ^^^ 1 ^^^ 1⟩ path3 3 none = .exit 1 := by
    decide +kernel
  rw [this] at hp
  cases hp

/-- C59: asking a partition without edges for its own level count is undefined behaviour. -/
theorem c59_violated_ub : ∃ s, SubReach id path3 [0] (sizeMax - 1) 0 s ∧ s.updateLevels id path3 0 none = .ub :=
  ⟨⟨⟨[], [0, 0]⟩, [0], [], 3 ^^^ 2 ^^^ 1 ^^^ 1⟩, .make (by decide) (by decide +kernel), by decide +kernel⟩

theorem vertexLevel_iff {parent : Graph} {S : Nat → Prop} {m : Nat} {s : Subgraph} (h : Subgraph.SubInv parent S m s)
    (i k : Nat) : s.vertexLevel i = .ok k ↔ s.fill.lev[i]? = some k := by
  have hsz : s.sizeVertex = s.l2g.length := h.size
  have hfull := h.fill.2
  have hlen : s.fill.lev.length = s.sizeVertex := by
    rw [hfull.len, hsz]; unfold Subgraph.fill; split <;> rfl
  unfold Subgraph.vertexLevel
  by_cases hi : i < s.sizeVertex
  · simp only [hi, decide_true, assert_true, Out.ok_bind]
    by_cases he : s.lev.isEmpty
    · have hf : s.fill.lev = List.replicate s.sizeVertex 0 := by unfold Subgraph.fill; rw [if_pos he]
      rw [if_pos he, hf]
      simp [hi]
    · have hf : s.fill.lev = s.lev := by unfold Subgraph.fill; rw [if_neg he]
      rw [if_neg he, hf]
      rw [hf] at hlen
      rw [rd_ok (by omega), List.getElem?_eq_getElem (by omega)]
      simp
  · have : s.fill.lev[i]? = none := List.getElem?_eq_none (by omega)
    rw [this]
    simp [assert, hi]

/-- C59: the exact behaviour.  If every level is below the new count the program grows the subgraph, and exits if some
vertex is as far away as a vertex of the parent can be; otherwise the subgraph shrinks, and the call is undefined iff
`erase_if` reads past the stored adjacencies. -/
theorem c59_update_levels_cases (parent : Graph) (hash : Nat → Nat) (part : List Nat) (m : Nat) (s : Subgraph)
    (hp : Reachable false parent) (hs : part.Pairwise (· < ·))
    (hlt : ∀ v ∈ part, v < parent.sizeVertex) (hr : SubReach hash parent part (sizeMax - 1) m s)
    (M : Nat) (hM : M < sizeMax) (gl : Option (List Nat)) :
    let grow := 0 < M ∧ ∀ i k, s.vertexLevel i = .ok k → k < M
    (s.updateLevels hash parent M gl = .exit 1 ∧ grow ∧
      (parent.sizeVertex = 0 ∨ ∃ i k, s.vertexLevel i = .ok k ∧ parent.sizeVertex ≤ k + 1)) ∨
    (s.updateLevels hash parent M gl = .ub ∧ ¬ grow ∧
      (s.graph = Graph.new ∨ ∃ i k, s.vertexLevel i = .ok k ∧ k ≤ M ∧ 2 * s.graph.sizeEdge false ≤ i)) ∨
    ((∃ p, s.updateLevels hash parent M gl = .ok p) ∧
      (grow → parent.sizeVertex ≠ 0 ∧ ∀ i k, s.vertexLevel i = .ok k → k + 1 < parent.sizeVertex) ∧
      (¬ grow → s.graph ≠ Graph.new ∧ ∀ i k, s.vertexLevel i = .ok k → k ≤ M → i < 2 * s.graph.sizeEdge false)) := by
  have hn := reach_small hp
  intro grow
  obtain ⟨x, hx⟩ := Subgraph.hash_ok hp hash
  obtain ⟨h, hpar⟩ := reach_inv hp hx hs hlt (by decide) hr
  obtain ⟨hi, hfull⟩ := h.fill
  have hlv := vertexLevel_iff h
  have hgrow : grow ↔ s.curMax < M := by
    constructor
    · rintro ⟨h0, h1⟩
      rcases hfull.att with ⟨_, h2⟩ | h2
      · omega
      · obtain ⟨i, hi, hie⟩ := List.mem_iff_getElem.mp h2
        exact h1 i _ ((hlv i _).mpr (by rw [List.getElem?_eq_getElem hi, hie]))
    · intro h1
      refine ⟨by omega, fun i k hk => ?_⟩
      have := hfull.le k (List.mem_of_getElem? ((hlv i k).mp hk))
      omega
  have hmem : ∀ (P : Nat → Prop), (∃ k ∈ s.fill.lev, P k) ↔ ∃ i k, s.vertexLevel i = .ok k ∧ P k := by
    intro P
    constructor
    · rintro ⟨k, hk, hP⟩
      obtain ⟨i, hi, hie⟩ := List.mem_iff_getElem.mp hk
      exact ⟨i, k, (hlv i k).mpr (by rw [List.getElem?_eq_getElem hi, hie]), hP⟩
    · rintro ⟨i, k, hk, hP⟩
      exact ⟨k, List.mem_of_getElem? ((hlv i k).mp hk), hP⟩
  rw [Subgraph.updateLevels_eq hp hash hx hpar]
  by_cases hc : s.curMax < M
  · rw [if_pos hc]
    by_cases hbad : parent.sizeVertex = 0 ∨ ∃ k ∈ s.fill.lev, parent.sizeVertex ≤ k + 1
    · left
      refine ⟨by rw [Subgraph.addLevels_exit hp hi hfull hbad]; rfl, hgrow.mpr hc, ?_⟩
      rcases hbad with hb | hb
      · exact .inl hb
      · exact .inr ((hmem (fun k => parent.sizeVertex ≤ k + 1)).mp hb)
    · right; right
      rw [not_or] at hbad
      have hb2 : ∀ k ∈ s.fill.lev, k + 1 < parent.sizeVertex := by
        intro k hk
        by_contra hcon
        exact hbad.2 ⟨k, hk, by omega⟩
      obtain ⟨s1, g2l, h1, _⟩ := Subgraph.addLevels_ok hp (by omega) hi hfull hc hM hb2
      refine ⟨⟨_, by rw [h1]; rfl⟩, fun _ => ⟨hbad.1, fun i k hk => hb2 k (List.mem_of_getElem? ((hlv i k).mp hk))⟩, ?_⟩
      intro hng; exact absurd (hgrow.mpr hc) hng
  · rw [if_neg hc]
    have hng : ¬ grow := fun hg => hc (hgrow.mp hg)
    have hgr : s.fill.graph = s.graph := by unfold Subgraph.fill; split <;> rfl
    have hflen : s.fill.lev.length = s.graph.sizeVertex := by
      rw [hfull.len, ← hgr]; exact hi.size.symm
    have hub := c05_erase_if_ub_iff false s.graph h.reach (fun v => decide (s.fill.lev.getD v 0 > M))
    have hcond : (∃ v, v < s.graph.sizeVertex ∧ decide (s.fill.lev.getD v 0 > M) = false ∧
        (if false then s.graph.sizeEdge false else 2 * s.graph.sizeEdge false) ≤ v) ↔
        ∃ i k, s.vertexLevel i = .ok k ∧ k ≤ M ∧ 2 * s.graph.sizeEdge false ≤ i := by
      simp only [Bool.false_eq_true, if_false, decide_eq_false_iff_not]
      constructor
      · rintro ⟨v, a, b, c⟩
        have hv : v < s.fill.lev.length := by omega
        refine ⟨v, s.fill.lev[v], (hlv v _).mpr (List.getElem?_eq_getElem hv), ?_, c⟩
        have : s.fill.lev.getD v 0 = s.fill.lev[v] := by simp [hv]
        omega
      · rintro ⟨i, k, a, b, c⟩
        have := (hlv i k).mp a
        have hil := (List.getElem?_eq_some_iff.mp this).1
        refine ⟨i, by omega, ?_, c⟩
        have : s.fill.lev.getD i 0 = k := by simp [this]
        omega
    rw [hcond] at hub
    have hrm := Subgraph.removeLevels_eq hi hfull (by omega : M ≤ s.curMax) gl
    rw [hgr] at hrm
    right
    by_cases hb : s.graph = Graph.new ∨ ∃ i k, s.vertexLevel i = .ok k ∧ k ≤ M ∧ 2 * s.graph.sizeEdge false ≤ i
    · left
      refine ⟨?_, hng, hb⟩
      have hu := hub.mpr hb
      rcases hrm with ⟨g, _, _, h1, _⟩ | ⟨e, _, h2, h3, _⟩
      · rw [h1] at hu; cases hu
      · rw [h2]; exact h3.mpr hu
    · right
      obtain ⟨g, hg⟩ := Graph.eraseIf_total h.reach (fun v => decide (s.fill.lev.getD v 0 > M)) (fun hh => hb (hub.mp hh))
      rcases hrm with ⟨_, s', gl', _, h2, _⟩ | ⟨e, _, _, _, h4⟩
      · refine ⟨⟨_, h2⟩, fun hgr => absurd hgr hng, fun _ => ?_⟩
        rw [not_or] at hb
        refine ⟨hb.1, fun i k h1 h2 => ?_⟩
        by_contra hcon
        exact hb.2 ⟨i, k, h1, h2, by omega⟩
      · exact absurd hg (h4 g)

/-- C59 for growth: a subgraph of a parent with at least two more vertices than its level count can always be given more
levels.  Missing from the full statement: the cases of `c59_update_levels_cases` in which the call fails. -/
theorem c59_update_levels_partial (parent : Graph) (hash : Nat → Nat) (part : List Nat) (m : Nat) (s : Subgraph)
    (hp : Reachable false parent) (hs : part.Pairwise (· < ·))
    (hlt : ∀ v ∈ part, v < parent.sizeVertex) (hr : SubReach hash parent part (sizeMax - 1) m s)
    (M : Nat) (hM : M < sizeMax) (hm : m < M) (hmn : m + 1 < parent.sizeVertex) (gl : Option (List Nat)) :
    ∃ p, s.updateLevels hash parent M gl = .ok p := by
  have hn := reach_small hp
  obtain ⟨f, hf⟩ := c24_update_levels_partial parent hash part m s hp hs hlt hr
  have hle : ∀ i k, s.vertexLevel i = .ok k → k ≤ m := by
    intro i k hk
    have hi : i < s.sizeVertex := by
      by_contra hc
      simp [Subgraph.vertexLevel, assert, hc] at hk
    obtain ⟨k', h1, h2⟩ := hf.levels i hi
    rw [hk] at h1
    cases h1
    obtain ⟨k'', h3, h4⟩ := (hf.vertices (f i)).mp ⟨i, hi, rfl⟩
    rw [h2.unique h4]; exact h3
  rcases c59_update_levels_cases parent hash part m s hp hs hlt hr M hM gl with ⟨_, _, h1⟩ | ⟨_, h1, _⟩ | ⟨h1, _⟩
  · exfalso
    rcases h1 with h1 | ⟨i, k, h1, h2⟩
    · omega
    · have := hle i k h1; omega
  · exact absurd ⟨by omega, fun i k hk => by have := hle i k hk; omega⟩ h1
  · exact h1

example : ∃ p, Subgraph.updateLevels id ⟨⟨[], [0, 0]⟩, [0], [], 3 ^^^ 2 ^^^ 1 ^^^ 1⟩ path3 2 none = .ok p :=
  c59_update_levels_partial path3 id [0] 0 _ path3_reachable (by decide) (by decide)
    (.make (by decide) (by decide +kernel)) 2 (by decide) (by decide) (by decide) none

/-! ### C60 -/

/-- The full C60: only graphs with the edges of the parent are taken for the parent.  It is false, see `c60_violated`. -/
def C60 : Prop :=
  ∀ (hash : Nat → Nat) (parent g : Graph) (part : List Nat) (m : Nat) (s : Subgraph), Reachable false parent →
    Reachable false g → part.Pairwise (· < ·) → (∀ v ∈ part, v < parent.sizeVertex) →
    SubReach hash parent part (sizeMax - 1) m s → s.isParent hash g = .ok true →
    ∀ u v, Adj g u v ↔ Adj parent u v

/-- C60: `is_parent` compares hashes. -/
theorem c60_is_parent (hash : Nat → Nat) (parent g : Graph) (part : List Nat) (m : Nat) (s : Subgraph)
    (hp : Reachable false parent) (hg : Reachable false g)
    (hs : part.Pairwise (· < ·)) (hlt : ∀ v ∈ part, v < parent.sizeVertex)
    (hr : SubReach hash parent part (sizeMax - 1) m s) :
    ∃ b, s.isParent hash g = .ok b ∧ (b = true ↔ g.hash hash false = parent.hash hash false) := by
  obtain ⟨x, hx⟩ := Subgraph.hash_ok hp hash
  obtain ⟨y, hy⟩ := Subgraph.hash_ok hg hash
  obtain ⟨h, hpar⟩ := reach_inv hp hx hs hlt (by decide) hr
  refine ⟨y == x, ?_, ?_⟩
  · unfold Subgraph.isParent
    rw [hy, hpar]; rfl
  · rw [hx, hy]; simp

/-- C60 for the parent itself, which is always recognised.  Missing from the full statement: other graphs are recognised
too when their hashes agree, see `c60_is_parent`. -/
theorem c60_own_parent_partial (hash : Nat → Nat) (parent : Graph) (part : List Nat) (m : Nat) (s : Subgraph)
    (hp : Reachable false parent)
    (hs : part.Pairwise (· < ·)) (hlt : ∀ v ∈ part, v < parent.sizeVertex)
    (hr : SubReach hash parent part (sizeMax - 1) m s) : s.isParent hash parent = .ok true := by
  obtain ⟨b, h1, h2⟩ := c60_is_parent hash parent parent part m s hp hp hs hlt hr
  rw [h1, h2.mpr rfl]

/-- C60: `update_levels` exits for every graph whose hash is not that of the parent. -/
theorem c60_update_levels_rejects (hash : Nat → Nat) (parent g : Graph) (part : List Nat) (m : Nat) (s : Subgraph)
    (hp : Reachable false parent) (hg : Reachable false g)
    (hs : part.Pairwise (· < ·)) (hlt : ∀ v ∈ part, v < parent.sizeVertex)
    (hr : SubReach hash parent part (sizeMax - 1) m s) (hne : g.hash hash false ≠ parent.hash hash false) (M : Nat)
    (gl : Option (List Nat)) : s.updateLevels hash g M gl = .exit 1 := by
  obtain ⟨x, hx⟩ := Subgraph.hash_ok hp hash
  obtain ⟨y, hy⟩ := Subgraph.hash_ok hg hash
  obtain ⟨h, hpar⟩ := reach_inv hp hx hs hlt (by decide) hr
  have : (s.hashParent == y) = false := by
    rw [hx, hy] at hne
    rw [beq_eq_false_iff_ne, hpar]
    rintro rfl
    exact hne rfl
  unfold Subgraph.updateLevels
  rw [hy, Out.ok_bind, this]
  rfl

example : SubReach id path3 [0, 1] (sizeMax - 1) 0 ⟨⟨[1, 0], [0, 1, 2]⟩, [0, 1], [], 1⟩ ∧
    pairs4.hash id false ≠ path3.hash id false :=
  ⟨.make (by decide) (by decide +kernel), by decide +kernel⟩

theorem addLevels_hash {s s' : Subgraph} {parent : Graph} {M c : Nat} {m : List Nat}
    (h : s.addLevels parent M c = .ok (s', m)) (x : Nat) :
    ({ s with hashParent := x } : Subgraph).addLevels parent M c = .ok ({ s' with hashParent := x }, m) := by
  unfold Subgraph.addLevels at h ⊢
  obtain ⟨⟨q, l, g2l⟩, h1, h⟩ := Out.bind_eq_ok.mp h
  obtain ⟨l', h2, h⟩ := Out.bind_eq_ok.mp h
  obtain ⟨⟨g2l', l2g, lev⟩, h3, h⟩ := Out.bind_eq_ok.mp h
  obtain ⟨g, h4, h⟩ := Out.bind_eq_ok.mp h
  cases h
  have h1' : loop (Subgraph.sizeVertex { s with hashParent := x }) (Subgraph.loadStep { s with hashParent := x } c)
      ([], List.replicate parent.sizeVertex sizeMax, List.replicate parent.sizeVertex sizeMax) = .ok (q, l, g2l) := h1
  exact Out.bind_eq_ok.mpr ⟨_, h1', Out.bind_eq_ok.mpr ⟨_, h2, Out.bind_eq_ok.mpr ⟨_, h3, Out.bind_eq_ok.mpr ⟨_, h4, rfl⟩⟩⟩⟩

/-- C60 does not hold, whatever `std::hash` is, and `update_levels` then mixes the edges of both graphs. -/
theorem c60_violated_any : ∃ (parent g : Graph) (part : List Nat), Reachable false parent ∧ Reachable false g ∧
    parent.sizeVertex < sizeMax ∧ part.Pairwise (· < ·) ∧ (∀ v ∈ part, v < parent.sizeVertex) ∧
    ¬ (∀ u v, Adj g u v ↔ Adj parent u v) ∧ ∀ hash, ∃ s, SubReach hash parent part (sizeMax - 1) 0 s ∧
      s.isParent hash g = .ok true ∧ ∃ p, s.updateLevels hash g 1 none = .ok p := by
  have r1 : Reachable false ⟨[1, 0, 2, 1, 3, 2], [0, 1, 3, 5, 6]⟩ :=
    ⟨[.insert (0, 1), .insert (1, 2), .insert (2, 3)], by simp [Op.Valid, sizeMax], by decide⟩
  have r2 : Reachable false ⟨[2, 2, 3, 0, 1, 1], [0, 1, 3, 5, 6]⟩ :=
    ⟨[.insert (0, 2), .insert (2, 1), .insert (1, 3)], by simp [Op.Valid, sizeMax], by decide⟩
  refine ⟨_, _, [0, 1], r1, r2, by decide, by decide, by decide, ?_, ?_⟩
  · intro h
    have : Adj ⟨[2, 2, 3, 0, 1, 1], [0, 1, 3, 5, 6]⟩ 0 1 := (h 0 1).mpr ⟨[1], rfl, by decide⟩
    obtain ⟨r, hr, hm⟩ := this
    have : Graph.nbrs ⟨[2, 2, 3, 0, 1, 1], [0, 1, 3, 5, 6]⟩ 0 = .ok [2] := by decide
    rw [this] at hr; cases hr; simp at hm
  · intro hash
    obtain ⟨x, hx⟩ := Subgraph.hash_ok r1 hash
    have hy : Graph.hash hash false ⟨[2, 2, 3, 0, 1, 1], [0, 1, 3, 5, 6]⟩ = .ok x := by
      rw [← hx]; exact (c11_collide false _ _ r1 r2 rfl rfl (by decide) (by decide) hash).symm
    refine ⟨⟨⟨[1, 0], [0, 1, 2]⟩, [0, 1], [], x⟩, .make (by decide) ?_, ?_, ?_⟩
    · unfold Subgraph.make; rw [hx]; rfl
    · unfold Subgraph.isParent; rw [hy]; simp
    · rw [Subgraph.updateLevels_eq r2 hash hy rfl]
      have h0 : Subgraph.addLevels ⟨⟨[1, 0], [0, 1, 2]⟩, [0, 1], [0, 0], 0⟩ ⟨[2, 2, 3, 0, 1, 1], [0, 1, 3, 5, 6]⟩ 1 0 =
          .ok (⟨⟨[1, 2, 0, 2, 3, 0, 1, 1], [0, 2, 5, 7, 8]⟩, [0, 1, 2, 3], [0, 0, 1, 1], 0⟩, [0, 1, 2, 3]) := by
        decide +kernel
      have h1 := addLevels_hash h0 x
      rw [if_pos (by show 0 < 1; omega)]
      exact ⟨(⟨⟨[1, 2, 0, 2, 3, 0, 1, 1], [0, 2, 5, 7, 8]⟩, [0, 1, 2, 3], [0, 0, 1, 1], x⟩, none),
        Out.bind_eq_ok.mpr ⟨_, h1, rfl⟩⟩

theorem c60_violated : ¬ C60 := by
  intro h
  obtain ⟨parent, g, part, h1, h2, h3, h4, h5, h6, h7⟩ := c60_violated_any
  obtain ⟨s, h8, h9, _⟩ := h7 id
  exact h6 (h id parent g part 0 s h1 h2 h4 h5 h8 h9)

/-! ### C61 -/

/-- C61: `reorder` renumbers the local vertices as the permutation says, and keeps global indices, levels and edges. -/
theorem c61_reorder (parent : Graph) (hash : Nat → Nat) (part : List Nat) (m : Nat) (s : Subgraph)
    (hp : Reachable false parent) (hs : part.Pairwise (· < ·))
    (hlt : ∀ v ∈ part, v < parent.sizeVertex) (hr : SubReach hash parent part (sizeMax - 1) m s)
    (perm : List Nat) (hperm : perm.Perm (List.range s.sizeVertex)) :
    ∃ s' old, s.reorder perm = .ok (s', old) ∧ s'.sizeVertex = s.sizeVertex ∧
      (∀ (i p : Nat), perm[i]? = some p → s'.localGlobal p = s.localGlobal i ∧ s'.vertexLevel p = s.vertexLevel i ∧
        s'.isLocal p = s.isLocal i) ∧
      (∀ (i j p q : Nat), perm[i]? = some p → perm[j]? = some q → (Adj s'.graph p q ↔ Adj s.graph i j)) ∧
      ∀ g, s'.isParent hash g = s.isParent hash g := by
  have hn := reach_small hp
  obtain ⟨x, hx⟩ := Subgraph.hash_ok hp hash
  obtain ⟨h, hpar⟩ := reach_inv hp hx hs hlt (by decide) hr
  obtain ⟨s', h1, h2, h3, h4⟩ := Subgraph.reorder_inv h hperm
  have hsz : s.sizeVertex = s.l2g.length := h.size
  have hsz' : s'.sizeVertex = s'.l2g.length := h2.size
  have hlen : perm.length = s.sizeVertex := by rw [hperm.length_eq]; simp
  have hmem : ∀ (i p : Nat), perm[i]? = some p → i < s.sizeVertex ∧ p < s.sizeVertex := by
    intro i p hi
    refine ⟨by have := (List.getElem?_eq_some_iff.mp hi).1; omega, ?_⟩
    have := (hperm.mem_iff).mp (List.mem_of_getElem? hi)
    simpa using this
  have hglob : ∀ (i p : Nat), perm[i]? = some p → ∃ v, s.l2g[i]? = some v ∧ s'.l2g[p]? = some v := by
    intro i p hi
    have hil : i < s.l2g.length := by have := hmem i p hi; omega
    exact ⟨_, List.getElem?_eq_getElem hil, h4 i p _ hi (List.getElem?_eq_getElem hil)⟩
  have hcount : s'.sizeVertex = s.sizeVertex := by
    unfold Subgraph.reorder at h1
    obtain ⟨⟨g, og⟩, e1, e2⟩ := Out.bind_eq_ok.mp h1
    obtain ⟨L, k1, k2⟩ := reach_rep h.reach
    have hL : L.length = s.sizeVertex := k1.sizeVertex.symm
    obtain ⟨g', k3, k4⟩ := k1.reorder k2.range (show IsPerm perm L.length by rw [hL]; exact hperm)
    rw [k3] at e1
    cases e1
    obtain ⟨_, _, e4⟩ := Out.bind_eq_ok.mp e2
    cases e4
    exact k4.sizeVertex.trans (by rw [reorderRows_length, hL])
  have sp := h.spec
  have sp' := h2.spec
  refine ⟨s', _, h1, hcount, ?_, ?_, ?_⟩
  · intro i p hi
    obtain ⟨v, e1, e2⟩ := hglob i p hi
    obtain ⟨hil, hpl⟩ := hmem i p hi
    have hpl' : p < s'.sizeVertex := by omega
    have f1 : s.l2g.getD i 0 = v := by simp [e1]
    have f2 : s'.l2g.getD p 0 = v := by simp [e2]
    refine ⟨?_, ?_, ?_⟩
    · have a := sp.mapping i hil
      have b := sp'.mapping p hpl'
      simp only [f1] at a
      simp only [f2] at b
      rw [a, b]
    · obtain ⟨k, a1, a2⟩ := sp.levels i hil
      obtain ⟨k', b1, b2⟩ := sp'.levels p hpl'
      simp only [f1] at a2
      simp only [f2] at b2
      rw [a1, b1, a2.unique b2]
    · obtain ⟨k, a1, a2⟩ := sp.isLocal i hil
      obtain ⟨k', b1, b2⟩ := sp'.isLocal p hpl'
      simp only [f1] at a2
      simp only [f2] at b2
      rw [a1, b1]
      rw [← b2] at a2
      cases k <;> cases k' <;> simp_all
  · intro i j p q hi hj
    obtain ⟨u, e1, e2⟩ := hglob i p hi
    obtain ⟨v, f1, f2⟩ := hglob j q hj
    rw [h2.adj p q u v e2 f2, h.adj i j u v e1 f1]
  · intro g; unfold Subgraph.isParent; rw [h3]

example : ∃ s, SubReach id path3 [1, 2] (sizeMax - 1) 1 s ∧ [2, 0, 1].Perm (List.range s.sizeVertex) ∧
    s.reorder [2, 0, 1] = .ok (⟨⟨[2, 2, 0, 1], [0, 1, 2, 4]⟩, [2, 0, 1], [0, 1, 0], 3 ^^^ 2 ^^^ 1 ^^^ 1⟩, { s with hashParent := 0 }) :=
  ⟨⟨⟨[1, 2, 0, 0], [0, 2, 3, 4]⟩, [1, 2, 0], [0, 0, 1], 3 ^^^ 2 ^^^ 1 ^^^ 1⟩, .make (by decide) (by decide +kernel),
    by decide, by decide +kernel⟩

/-! ### C62 -/

/-- The full C62: `reorder` returns the subgraph as it was.  It is false, see `c62_violated`. -/
def C62 : Prop :=
  ∀ (parent : Graph) (hash : Nat → Nat) (part : List Nat) (m : Nat) (s : Subgraph), Reachable false parent →
    part.Pairwise (· < ·) → (∀ v ∈ part, v < parent.sizeVertex) →
    SubReach hash parent part (sizeMax - 1) m s → ∀ perm s' old, s.reorder perm = .ok (s', old) →
    (∀ i, old.localGlobal i = s.localGlobal i ∧ old.vertexLevel i = s.vertexLevel i) ∧ old.graph = s.graph ∧
    ∀ g, old.isParent hash g = s.isParent hash g

/-- C62 does not hold: the returned subgraph does not know its parent. -/
theorem c62_violated : ¬ C62 := by
  intro h
  obtain ⟨_, _, h3⟩ := h path3 (· * 5) [0, 1] 0 ⟨⟨[1, 0], [0, 1, 2]⟩, [0, 1], [], 15 ^^^ 10 ^^^ 5 ^^^ 5⟩ path3_reachable
    (by decide) (by decide) (.make (by decide) (by decide +kernel)) [1, 0]
    ⟨⟨[1, 0], [0, 1, 2]⟩, [1, 0], [], 15 ^^^ 10 ^^^ 5 ^^^ 5⟩ ⟨⟨[1, 0], [0, 1, 2]⟩, [0, 1], [], 0⟩ (by decide +kernel)
  exact absurd (h3 path3) (by decide +kernel)

/-- C62 for everything but the parent.  Missing from the full statement: `is_parent` compares with 0 afterwards. -/
theorem c62_old_partial (s : Subgraph) (perm : List Nat) (s' old : Subgraph) (hr : s.reorder perm = .ok (s', old)) :
    (∀ i, old.localGlobal i = s.localGlobal i ∧ old.vertexLevel i = s.vertexLevel i) ∧ old.graph = s.graph ∧
    ∀ (hash : Nat → Nat) (g : Graph) (x : Nat), g.hash hash false = .ok x → old.isParent hash g = .ok (x == 0) := by
  unfold Subgraph.reorder at hr
  obtain ⟨⟨g, og⟩, h1, h2⟩ := Out.bind_eq_ok.mp hr
  obtain ⟨⟨l, lv⟩, _, h4⟩ := Out.bind_eq_ok.mp h2
  cases h4
  have ho : og = s.graph := by
    unfold Graph.reorder at h1
    simp only [Out.bind_eq_ok, Out.pure_eq, Out.ok.injEq, Prod.mk.injEq] at h1
    grind
  subst ho
  refine ⟨fun i => ⟨rfl, rfl⟩, rfl, ?_⟩
  intro hash g x hx
  unfold Subgraph.isParent
  rw [hx]
  rfl

end Disa.Props
