import Verif.Props.Ghost
import Verif.Props.Partition

/-!
# Jacobi iterations in parts with exchange of the values around them
-/

namespace Disa.Props

open Disa Spec Graph Disa.Sparse Disa.Dense Iterative

section owners

variable {parent : Graph} {hash : Nat → Nat} {part : List Nat} {m : Nat} {s : Subgraph}

/-- The vertices of the partition are the vertices of level 0. -/
theorem ghost_owner (hp : Reachable false parent) (hs : part.Pairwise (· < ·)) (hlt : ∀ v ∈ part, v < parent.sizeVertex)
    (hr : SubReach hash parent part (sizeMax - 1) m s) {loc : Fin s.sizeVertex → Fin parent.sizeVertex}
    (hloc : ∀ i : Fin s.sizeVertex, s.localGlobal i = .ok (loc i).1) (v : Fin parent.sizeVertex) (hv : v.1 ∈ part) :
    ∃ i : Fin s.sizeVertex, loc i = v ∧ s.vertexLevel i = .ok 0 := by
  obtain ⟨f, hf⟩ := c24_update_levels_partial parent hash part m s hp hs hlt hr
  have h0 : IsDist (Adj parent) (· ∈ part) v.1 0 := ⟨⟨v.1, hv, rfl⟩, fun j hj => absurd hj (Nat.not_lt_zero j)⟩
  obtain ⟨i, h1, h2⟩ := (hf.vertices v).mpr ⟨0, Nat.zero_le _, h0⟩
  obtain ⟨k, h3, h4⟩ := hf.levels i h1
  rw [h2] at h4
  obtain rfl := h4.unique h0
  exact ⟨⟨i, h1⟩, Fin.ext ((Out.ok.inj ((hf.mapping i h1).symm.trans (hloc ⟨i, h1⟩))).symm.trans h2), h3⟩

end owners

section rounds

variable {K N : Type} [Field K] [LinearOrder K] [IsStrictOrderedRing K] {F : Scalars K N}

/-- The parts of a system with at least `r` levels around them: a subgraph for each, a matrix and a right-hand side which have the
rows of the whole system at the levels below the last. -/
structure HaloParts (hash : Nat → Nat) (parent : Graph) (A : Fin parent.sizeVertex → Fin parent.sizeVertex → K)
    (b : Fin parent.sizeVertex → K) (r : Nat) {ι : Type} (part : ι → List Nat) (m : ι → Nat) (s : ι → Subgraph)
    (loc : ∀ p, Fin (s p).sizeVertex → Fin parent.sizeVertex) (M' : ι → Sparse K)
    (A' : ∀ p, Fin (s p).sizeVertex → Fin (s p).sizeVertex → K) (b' : ∀ p, Fin (s p).sizeVertex → K) : Prop where
  sorted : ∀ p, (part p).Pairwise (· < ·)
  inside : ∀ p, ∀ v ∈ part p, v < parent.sizeVertex
  cover : ∀ v < parent.sizeVertex, ∃ p, v ∈ part p
  reach : ∀ p, SubReach hash parent (part p) (sizeMax - 1) (m p) (s p)
  mapping : ∀ p, ∀ i : Fin (s p).sizeVertex, (s p).localGlobal i = .ok (loc p i).1
  square : ∀ p, Square (M' p) (A' p)
  diagonal : ∀ p i, A' p i i ≠ 0
  rows : ∀ p, ∀ (i : Fin (s p).sizeVertex) (k : Nat), (s p).vertexLevel i = .ok k → k < m p → ∀ j, A' p i j = A (loc p i) (loc p j)
  right : ∀ p, ∀ (i : Fin (s p).sizeVertex) (k : Nat), (s p).vertexLevel i = .ok k → k < m p → b' p i = b (loc p i)
  levels : ∀ p, r ≤ m p

/-- A round in which every part does `r` iterations from the values `z` at its vertices, after which the vertices have the values `z'` of
the parts they belong to. -/
def Round (F : Scalars K N) {parent : Graph} (r : Nat) {ι : Type} (s : ι → Subgraph)
    (loc : ∀ p, Fin (s p).sizeVertex → Fin parent.sizeVertex) (M' : ι → Sparse K) (b' : ∀ p, Fin (s p).sizeVertex → K)
    (z z' : Fin parent.sizeVertex → K) : Prop :=
  ∀ p, ∃ (st' : FixedPoint K) (w' v' : List K) (y : Fin (s p).sizeVertex → K), w'.length = (s p).sizeVertex ∧
    times (step F .jacobi st' (M' p) (vec (b' p))) r (vec fun i => z (loc p i), w') = .ok (vec y, v') ∧
    ∀ i : Fin (s p).sizeVertex, (s p).vertexLevel i = .ok 0 → z' (loc p i) = y i

variable {parent : Graph} {hash : Nat → Nat} {M : Sparse K} {A : Fin parent.sizeVertex → Fin parent.sizeVertex → K}
  {b : Fin parent.sizeVertex → K} {r : Nat} {ι : Type} {part : ι → List Nat} {m : ι → Nat} {s : ι → Subgraph}
  {loc : ∀ p, Fin (s p).sizeVertex → Fin parent.sizeVertex} {M' : ι → Sparse K}
  {A' : ∀ p, Fin (s p).sizeVertex → Fin (s p).sizeVertex → K} {b' : ∀ p, Fin (s p).sizeVertex → K}

/-- Two runs of Jacobi agree if one starts where the other has come to. -/
theorem jacobi_shift {us xs : Nat → Fin parent.sizeVertex → K} {q : Nat} (h0 : us 0 = xs q) (hu : ∀ t, Next A b .jacobi (us t) (us (t + 1)))
    (hx : ∀ t, Next A b .jacobi (xs t) (xs (t + 1))) (t : Nat) : us t = xs (q + t) := by
  induction t with
  | zero => exact h0
  | succ t ih =>
    funext i
    rw [hu t i, ← Nat.add_assoc, hx (q + t) i, if_pos rfl, if_pos rfl, ih]

/-- C191: Jacobi in parts.  In each round every part does `r` iterations on its own matrix and then takes the values of the vertices
around it from the parts they belong to.  With `r` levels around the parts the rounds are exactly `r` iterations each on the whole
system. -/
theorem c191_rounds (hF : Exact F) (hp : Reachable false parent) (hM : Square M A) (hA : Along parent A) (hd : ∀ i, A i i ≠ 0)
    (H : HaloParts hash parent A b r part m s loc M' A' b') (st : FixedPoint K) (w : List K) (hw : w.length = parent.sizeVertex)
    (z : Nat → Fin parent.sizeVertex → K) (hz : ∀ T, Round F r s loc M' b' (z T) (z (T + 1))) (T : Nat) :
    ∃ v, times (step F .jacobi st M (vec b)) (r * T) (vec (z 0), w) = .ok (vec (z T), v) := by
  obtain ⟨xs, x0, x1, x2⟩ := iterates_next hF .jacobi st hM hd b (z 0) w (fun _ => hw)
  have main : ∀ T, z T = xs (r * T) := by
    intro T
    induction T with
    | zero => rw [Nat.mul_zero, x0]
    | succ T ih =>
      obtain ⟨us, u0, u1, u2⟩ := iterates_next hF .jacobi st hM hd b (z T) w (fun _ => hw)
      have hu := jacobi_shift (u0.trans ih) u2 x2
      funext v
      obtain ⟨p, hv⟩ := H.cover v v.2
      obtain ⟨i, hi, hi0⟩ := ghost_owner hp (H.sorted p) (H.inside p) (H.reach p) (H.mapping p) v hv
      obtain ⟨st', w', v', y, g1, g2, g3⟩ := hz T p
      obtain ⟨as, ys, k1, k2, k3⟩ := c188_jacobi hF hp (H.sorted p) (H.inside p) (H.reach p) (loc p) (H.mapping p) M (M' p) A (A' p) hM
        (H.square p) hA hd (H.diagonal p) (H.rows p) b (z T) (b' p) (H.right p) st st' w w' hw g1
      obtain ⟨e1, e2⟩ := k2 r
      have hy : y = ys r := vec_inj.mp (congrArg Prod.fst (Out.ok.inj (g2.symm.trans e2)))
      obtain ⟨f1, f2⟩ := k1 r
      obtain ⟨f3, f4⟩ := u1 r
      have ha : as r = us r := vec_inj.mp (congrArg Prod.fst (Out.ok.inj (f2.symm.trans f4)))
      rw [← hi, g3 i hi0, hy, k3 r i 0 hi0 (by have := H.levels p; omega), ha, hu, Nat.mul_succ]
  obtain ⟨v, e⟩ := x1 (r * T)
  exact ⟨v, by rw [e, main T]⟩

/-- C191: the rounds can be run, from any values: no part fails, and parts that share a vertex agree on it. -/
theorem c191_exists (hF : Exact F) (hp : Reachable false parent) (hM : Square M A) (hA : Along parent A) (hd : ∀ i, A i i ≠ 0)
    (H : HaloParts hash parent A b r part m s loc M' A' b') (x : Fin parent.sizeVertex → K) :
    ∃ z : Nat → Fin parent.sizeVertex → K, z 0 = x ∧ ∀ T, Round F r s loc M' b' (z T) (z (T + 1)) := by
  let st : FixedPoint K := ⟨⟨0, 0, 0⟩, [], 0⟩
  let w : List K := List.replicate parent.sizeVertex 0
  have hw : w.length = parent.sizeVertex := List.length_replicate
  obtain ⟨xs, x0, x1, x2⟩ := iterates_next hF .jacobi st hM hd b x w (fun _ => hw)
  refine ⟨fun T => xs (r * T), by simpa using x0, fun T p => ?_⟩
  obtain ⟨us, u0, u1, u2⟩ := iterates_next hF .jacobi st hM hd b (xs (r * T)) w (fun _ => hw)
  have hu := jacobi_shift u0 u2 x2
  obtain ⟨as, ys, k1, k2, k3⟩ := c188_jacobi hF hp (H.sorted p) (H.inside p) (H.reach p) (loc p) (H.mapping p) M (M' p) A (A' p) hM
    (H.square p) hA hd (H.diagonal p) (H.rows p) b (xs (r * T)) (b' p) (H.right p) st st w (List.replicate (s p).sizeVertex 0) hw
    List.length_replicate
  obtain ⟨v', e⟩ := k2 r
  obtain ⟨f1, f2⟩ := k1 r
  obtain ⟨f3, f4⟩ := u1 r
  have ha : as r = us r := vec_inj.mp (congrArg Prod.fst (Out.ok.inj (f2.symm.trans f4)))
  refine ⟨st, _, v', ys r, List.length_replicate, e, fun i hi => ?_⟩
  show xs (r * (T + 1)) (loc p i) = ys r i
  rw [k3 r i 0 hi (by have := H.levels p; omega), ha, hu, Nat.mul_succ]

end rounds

/-! ### The parts of `recursive_graph_bisection` -/

theorem make_l2g {hash : Nat → Nat} {g : Graph} {part : List Nat} {s : Subgraph} (h : Subgraph.make hash g part 0 = .ok s) :
    s.l2g = part := by
  unfold Subgraph.make at h
  simp only [Out.bind_eq_ok, bne_self_eq_false, Bool.false_eq_true, if_false, Out.pure_eq, Out.ok.injEq] at h
  obtain ⟨_, -, _, -, _, -, x, -, y, -, z, -, rfl⟩ := h
  rfl

/-- Each part is what the constructor makes of its vertices. -/
theorem bisection_made {hash : Nat → Nat} {g : Graph} {k : Nat} {subs : List Subgraph} (h : Partition.bisection hash g k = .ok subs) :
    ∀ s ∈ subs, Subgraph.make hash g s.l2g 0 = .ok s := by
  unfold Partition.bisection at h
  simp only [Out.bind_eq_ok] at h
  obtain ⟨_, -, s0, h0, h1⟩ := h
  refine loop_inv_of_ok (fun _ (subs : List Subgraph) => ∀ s ∈ subs, Subgraph.make hash g s.l2g 0 = .ok s) ?_ ?_ h1
  · intro s hs
    rw [List.mem_singleton] at hs
    rw [hs, make_l2g h0]
    exact h0
  · intro i ss ss' _ ih hb s hs
    unfold Partition.bisectStep at hb
    simp only [Out.bind_eq_ok, Out.pure_eq, Out.ok.injEq] at hb
    obtain ⟨t, -, q, -, lv, -, lr, -, l, h2, ss1, h3, r, h4, rfl⟩ := hb
    rcases List.mem_append.mp hs with hs | hs
    · have : ss1 = ss.set (Partition.largest ss) l := by
        unfold wr at h3
        split at h3
        · exact (Out.ok.inj h3).symm
        · cases h3
      rw [this] at hs
      rcases List.mem_or_eq_of_mem_set hs with hs | rfl
      · exact ih s hs
      · rw [make_l2g h2]; exact h2
    · rw [List.mem_singleton] at hs
      rw [hs, make_l2g h4]
      exact h4

/-- C191: the parts that `recursive_graph_bisection` returns are such parts without levels; every vertex belongs to one of them. -/
theorem c191_bisection (hash : Nat → Nat) (g : Graph) (h : Reachable false g) (hs : g.sizeVertex ≤ 2 * g.sizeEdge false) (k : Nat)
    (hk : 0 < k) (hkn : k ≤ g.sizeVertex) :
    ∃ (subs : List Subgraph) (part : Fin subs.length → List Nat), Partition.bisection hash g k = .ok subs ∧ subs.length = k ∧
      (∀ p, (part p).Pairwise (· < ·)) ∧ (∀ p, ∀ v ∈ part p, v < g.sizeVertex) ∧ (∀ v < g.sizeVertex, ∃ p, v ∈ part p) ∧
      ∀ p, SubReach hash g (part p) (sizeMax - 1) 0 subs[p] ∧
        ∀ m < sizeMax, ∀ gl s gl', subs[p].updateLevels hash g m gl = .ok (s, gl') → SubReach hash g (part p) (sizeMax - 1) m s := by
  obtain ⟨x, hx⟩ := Subgraph.hash_ok h hash
  obtain ⟨subs, h1, h2, h3⟩ := Partition.bisection_ok h hash hx (fun v hv => by omega) hk hkn
  have hmem : ∀ v, v < g.sizeVertex ↔ ∃ s ∈ subs, v ∈ s.l2g := fun v => by
    rw [← List.mem_range, ← h2.perm.mem_iff]
    simp
  have hbase : ∀ p : Fin subs.length, SubReach hash g subs[p].l2g (sizeMax - 1) 0 subs[p] := fun p =>
    .make (Nat.zero_le _) (bisection_made h1 _ (List.getElem_mem _))
  refine ⟨subs, fun p => subs[p].l2g, h1, h3, fun p => (h2.part _ (List.getElem_mem _)).sorted,
    fun p v hv => (hmem v).mpr ⟨_, List.getElem_mem _, hv⟩, fun v hv => ?_, fun p => ⟨hbase p, fun m hm gl s gl' he => ?_⟩⟩
  · obtain ⟨s, hs1, hs2⟩ := (hmem v).mp hv
    obtain ⟨i, hi, rfl⟩ := List.getElem_of_mem hs1
    exact ⟨⟨i, hi⟩, hs2⟩
  · exact .levels (hbase p) (by omega) he

/-- The hypotheses hold for a path of three vertices in two parts with one level each. -/
example : ∃ (M : Sparse ℚ) (A : Fin path3.sizeVertex → Fin path3.sizeVertex → ℚ) (m : Bool → Nat) (s : Bool → Subgraph)
    (loc : ∀ p, Fin (s p).sizeVertex → Fin path3.sizeVertex) (M' : Bool → Sparse ℚ)
    (A' : ∀ p, Fin (s p).sizeVertex → Fin (s p).sizeVertex → ℚ), Square M A ∧ Along path3 A ∧ (∀ i, A i i ≠ 0) ∧
    HaloParts id path3 A (fun _ => 1) 1 (fun p => if p then [0] else [1, 2]) m s loc M' A' (fun _ _ => 1) := by
  let s : Bool → Subgraph := fun p => if p then ⟨⟨[1, 0], [0, 1, 2]⟩, [0, 1], [0, 1], 3 ^^^ 2 ^^^ 1 ^^^ 1⟩
    else ⟨⟨[1, 2, 0, 0], [0, 2, 3, 4]⟩, [1, 2, 0], [0, 0, 1], 3 ^^^ 2 ^^^ 1 ^^^ 1⟩
  have hr : ∀ p, SubReach id path3 (if p then [0] else [1, 2]) (sizeMax - 1) 1 (s p) := fun p => by
    cases p
    · exact .make (by decide) (by decide +kernel)
    · exact .make (by decide) (by decide +kernel)
  have h1 : ∀ p : Bool, (if p then [0] else [1, 2] : List Nat).Pairwise (· < ·) := by decide
  have h2 : ∀ p : Bool, ∀ v ∈ (if p then [0] else [1, 2] : List Nat), v < path3.sizeVertex := by decide
  choose loc hloc using fun p => ghost_loc path3_reachable (h1 p) (h2 p) (hr p)
  obtain ⟨M, A, m1, m2, m3, -⟩ := c167_assemble path3 path3_reachable (1 : ℚ)
  choose M0 M' A0 A' a1 a2 a3 a4 a5 a6 a7 a8 using fun p =>
    c188_laplace path3_reachable (h1 p) (h2 p) (hr p) (loc p) (hloc p) (1 : ℚ) one_pos
  have hMM : ∀ p, M0 p = M := fun p => Out.ok.inj ((a1 p).symm.trans m1)
  have hAA : ∀ p, A0 p = A := fun p => by
    funext i j
    have e1 := (a3 p).2.2.2 i j
    rw [hMM p, m2.2.2.2 i j] at e1
    exact (Out.ok.inj e1).symm
  refine ⟨M, A, fun _ => 1, s, loc, M', A', m2, ofGraph_along m3, fun i => ((ofGraph_signed path3_reachable one_pos m3).1 i).ne', ?_⟩
  exact ⟨h1, h2, by decide, hr, hloc, a4, a7, fun p i k h3 h4 j => by rw [a8 p i k h3 h4 j, hAA p], fun _ _ _ _ _ => rfl, fun _ => le_rfl⟩

end Disa.Props
