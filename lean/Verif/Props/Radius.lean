import Verif.Props.Multinode

/-!
# Property C197: the level set expansion does not make the parts wider
-/

namespace Disa.Spec

/-- Some vertex of `p` has all vertices of `p` within distance `r`. -/
def Within (E : Nat → Nat → Prop) (r : Nat) (p : List Nat) : Prop :=
  ∃ v ∈ p, ∀ u ∈ p, ∃ k, k ≤ r ∧ IsDist E (· = v) u k

/-- Some vertex of `p` has walks of at most `r` steps to all vertices of `p`, and the walks stay in `p`. -/
def WithinAlone (E : Nat → Nat → Prop) (r : Nat) (p : List Nat) : Prop :=
  ∃ v ∈ p, ∀ u ∈ p, ∃ k, k ≤ r ∧ Walk (fun a b => E a b ∧ a ∈ p ∧ b ∈ p) k v u

theorem WithinAlone.within {E : Nat → Nat → Prop} {r : Nat} {p : List Nat} (h : WithinAlone E r p) : Within E r p := by
  obtain ⟨v, hv, h⟩ := h
  refine ⟨v, hv, fun u hu => ?_⟩
  obtain ⟨k, hk, hw⟩ := h u hu
  obtain ⟨j, hj, hd⟩ := exists_isDist_le (S := (· = v)) rfl (hw.mono (fun a b h => h.1))
  exact ⟨j, by omega, hd⟩

end Disa.Spec

namespace Disa.Props

open Disa Spec Graph Partition

/-- Nonempty disjoint lists that hold every vertex. -/
structure Cover (g : Graph) (ps : List (List Nat)) : Prop where
  lists : Lists g ps
  nonempty : ∀ p ∈ ps, p ≠ []
  two : 2 ≤ ps.length
  all : ∀ v, v < g.sizeVertex → ∃ p ∈ ps, v ∈ p

theorem makeAll_l2g {g : Graph} (h : Reachable false g) {hash : Nat → Nat} {ps : List (List Nat)} (hl : Lists g ps)
    {subs : List Subgraph} (hm : makeAll hash g ps = .ok subs) : subs.map Subgraph.l2g = ps := by
  refine List.ext_getElem (by rw [List.length_map]; exact mapOut_len hm) fun i h1 h2 => ?_
  obtain ⟨s, hs, hm'⟩ := mapOut_get hm (List.getElem?_eq_getElem h2)
  obtain ⟨h3, h4⟩ := List.getElem?_eq_some_iff.mp hs
  rw [List.getElem_map, h4]
  exact (made_bare h (hl.sorted _ (List.getElem_mem h2)) (hl.lt _ (List.getElem_mem h2)) hm').1

section
variable {g : Graph} {hash : Nat → Nat} {ecc : List (List Nat)} {D : Nat → Nat → Nat}

theorem grown_within (hD : ∀ v w, v < g.sizeVertex → w < g.sizeVertex → v ≠ w → IsDist (Adj g) (· = v) w (D v w))
    {ps qs : List (List Nat)} (hp : Cover g ps) {seeds : List Nat} (hs : Centres D ps seeds) (hg : Grown g seeds qs) {r : Nat}
    (hw : ∀ p ∈ ps, Within (Adj g) r p) : ∀ q ∈ qs, WithinAlone (Adj g) r q := by
  intro q hq
  obtain ⟨g1, -, -, g4⟩ := id hg
  obtain ⟨hql, -⟩ := grown_lists hg
  obtain ⟨i, hi⟩ := List.mem_iff_getElem?.mp hq
  have hi' : i < seeds.length := by rw [← g1]; exact (List.getElem?_eq_some_iff.mp hi).1
  obtain ⟨hv, hu⟩ := g4 i _ q hi (List.getElem?_eq_getElem hi')
  refine ⟨_, hv, fun u huq => ?_⟩
  obtain ⟨k, k1, k2⟩ := hu u huq
  refine ⟨k, ?_, k2⟩
  obtain ⟨p, pp, up⟩ := hp.all u (hql.lt q hq u huq)
  obtain ⟨j, hj⟩ := List.mem_iff_getElem?.mp pp
  have hj' : j < seeds.length := by rw [hs.1]; exact (List.getElem?_eq_some_iff.mp hj).1
  obtain ⟨hc, m, m1, m2⟩ := hs.2 j _ p hj (List.getElem?_eq_getElem hj')
  have hmr : m ≤ r := by
    obtain ⟨v0, hv0, hin⟩ := hw p pp
    obtain ⟨m0, hm0⟩ := spread_exists D p v0
    have := (m2 v0 hv0 m0 hm0).1
    rcases hm0.2 with h0 | ⟨w, w1, w2, w3⟩
    · omega
    · obtain ⟨e, e1, e2⟩ := hin w w1
      have := e2.unique (hD v0 w (hp.lists.lt p pp v0 hv0) (hp.lists.lt p pp w w1) (Ne.symm w2))
      omega
  by_contra hlt
  have hcs : seeds[j] ∈ seeds := List.getElem_mem hj'
  by_cases huc : u = seeds[j]
  · exact k1.2 0 (by omega) seeds[j] hcs huc.symm
  · have hle := m1.1 u up huc
    obtain ⟨⟨s, hss, hwalk⟩, -⟩ := hD _ u (hp.lists.lt p pp _ hc) (hp.lists.lt p pp u up) (Ne.symm huc)
    subst hss
    exact k1.2 _ (by omega) seeds[j] hcs hwalk

theorem grown_cover {ps qs : List (List Nat)} (hp : Cover g ps) {seeds : List Nat} (hs : seeds.length = ps.length)
    (hg : Grown g seeds qs) : Cover g qs := by
  obtain ⟨h1, h2⟩ := grown_lists hg
  refine ⟨h1, h2, ?_, fun v hv => ?_⟩
  · rw [hg.1, hs]; exact hp.two
  · have := hg.2.2.1.mem_iff.mpr (List.mem_range.mpr hv)
    exact List.mem_flatten.mp this

/-- Further iterations after some. -/
theorem passes_within (h : Reachable false g) (hc : Connected (Adj g) g.sizeVertex) (ht : Table ecc g.sizeVertex D)
    (hD : ∀ v w, v < g.sizeVertex → w < g.sizeVertex → v ≠ w → IsDist (Adj g) (· = v) w (D v w)) {subs : List Subgraph}
    {n : Nat} {ps : List (List Nat)} {subs0 : List Subgraph} (h0 : loop n (fun _ => passOf hash g ecc) subs = .ok subs0)
    (hm : makeAll hash g ps = .ok subs0) (hp : Cover g ps) {m : Nat} (hnm : n < m) :
    ∃ qs subs', loop m (fun _ => passOf hash g ecc) subs = .ok subs' ∧ makeAll hash g qs = .ok subs' ∧ Cover g qs ∧
      ∀ r, (∀ p ∈ ps, Within (Adj g) r p) → ∀ q ∈ qs, WithinAlone (Adj g) r q := by
  have hn := reach_small h
  obtain ⟨L, hr, hg⟩ := reach_rep h
  have hf : ∀ qs, Lists g qs → Finite D qs := fun qs hq p hp v hv w hw hvw => by
    have h1 := hq.lt p hp v hv
    have := hD v w h1 (hq.lt p hp w hw) hvw
    rw [hr.adj_eq] at this
    rw [hr.sizeVertex] at h1 hn
    have := dist_lt hg h1 this
    omega
  have hstep : ∀ qs subs0, makeAll hash g qs = .ok subs0 → Cover g qs → ∃ rs subs', passOf hash g ecc subs0 = .ok subs' ∧
      makeAll hash g rs = .ok subs' ∧ Cover g rs ∧
      ∀ r, (∀ p ∈ qs, Within (Adj g) r p) → ∀ q ∈ rs, WithinAlone (Adj g) r q := by
    intro qs subs0 hm hq
    obtain ⟨seeds, rs, subs', p1, -, p3, p4, p5, p6⟩ := pass_ok h hc ht hq.lists hq.nonempty (hf qs hq.lists) hq.two hm
    exact ⟨rs, subs', by unfold passOf; rw [p1, Out.ok_bind, p3], p4, grown_cover hq p5.1 p6,
      fun r hw => grown_within hD hq p5 p6 hw⟩
  induction m, hnm using Nat.le_induction with
  | base =>
    obtain ⟨rs, subs', s1, s2, s3, s4⟩ := hstep ps subs0 hm hp
    exact ⟨rs, subs', by rw [loop, h0, Out.ok_bind, s1], s2, s3, s4⟩
  | succ m _ ih =>
    obtain ⟨qs, subs1, i1, i2, i3, i4⟩ := ih
    obtain ⟨rs, subs', s1, s2, s3, s4⟩ := hstep qs subs1 i2 i3
    exact ⟨rs, subs', by rw [loop, i1, Out.ok_bind, s1], s2, s3,
      fun r hw => s4 r fun q hq => (i4 r hw q hq).within⟩

/-- C197: suppose the distances computed first were those of the graph.  If after `n` iterations each part has a vertex with
all its vertices within distance `r`, then after any larger number of iterations each part has a vertex from which all its
vertices are at most `r` steps away, without leaving the part. -/
theorem c197_radius (h : Reachable false g) (hc : Connected (Adj g) g.sizeVertex) (ht : Table ecc g.sizeVertex D)
    (hD : ∀ v w, v < g.sizeVertex → w < g.sizeVertex → v ≠ w → IsDist (Adj g) (· = v) w (D v w))
    {ps : List (List Nat)} (hp : Cover g ps) {subs : List Subgraph} (hm : makeAll hash g ps = .ok subs) {n m : Nat}
    (hnm : n < m) :
    ∃ a b, multinodeLoop hash g ecc n subs = .ok a ∧ multinodeLoop hash g ecc m subs = .ok b ∧
      ∀ r, (∀ s ∈ a, Within (Adj g) r s.l2g) → ∀ t ∈ b, WithinAlone (Adj g) r t.l2g := by
  have hn := reach_small h
  obtain ⟨L, hr, hg⟩ := reach_rep h
  have hf : ∀ v w, v < g.sizeVertex → w < g.sizeVertex → v ≠ w → D v w < sizeMax := fun v w hv hw hvw => by
    have := hD v w hv hw hvw
    rw [hr.adj_eq] at this
    rw [hr.sizeVertex] at hv hn
    have := dist_lt hg hv this
    omega
  have key : ∀ n, ∃ a, multinodeLoop hash g ecc n subs = .ok a ∧ loop n (fun _ => passOf hash g ecc) subs = .ok a := by
    intro n
    obtain ⟨qs, subs', k1, _, _, k2⟩ := passes_loop h hc ht hf hp.lists hp.nonempty hp.two hm n
    exact ⟨subs', k1, k2⟩
  have hfirst : ∃ qs subs', loop n (fun _ => passOf hash g ecc) subs = .ok subs' ∧ makeAll hash g qs = .ok subs' ∧
      Cover g qs := by
    rcases Nat.eq_zero_or_pos n with h0 | h0
    · subst h0
      exact ⟨ps, subs, rfl, hm, hp⟩
    · obtain ⟨qs, subs', q1, q2, q3, -⟩ := passes_within h hc ht hD (subs := subs) (n := 0) rfl hm hp h0
      exact ⟨qs, subs', q1, q2, q3⟩
  obtain ⟨qs, a, q1, q2, q3⟩ := hfirst
  obtain ⟨rs, b, r1, r2, r3, r4⟩ := passes_within h hc ht hD q1 q2 q3 hnm
  obtain ⟨a', a1, a2⟩ := key n
  obtain ⟨b', b1, b2⟩ := key m
  rw [q1] at a2
  rw [r1] at b2
  cases a2
  cases b2
  refine ⟨a, b, a1, b1, fun r hw t htb => ?_⟩
  have hqa := makeAll_l2g h q3.lists q2
  have hrb := makeAll_l2g h r3.lists r2
  refine r4 r (fun q hq => ?_) t.l2g (hrb ▸ List.mem_map_of_mem htb)
  rw [← hqa] at hq
  obtain ⟨s, hs, rfl⟩ := List.mem_map.mp hq
  exact hw s hs

end

theorem path4_dist : ∀ v w, v < path4.sizeVertex → w < path4.sizeVertex → v ≠ w →
    IsDist (Adj path4) (· = v) w (pathDist v w) := by
  have hadj : ∀ a b : Fin 4, (match path4.nbrs a with | .ok r => decide (b.1 ∈ r) | _ => false) =
      decide (a.1 = b.1 + 1 ∨ b.1 = a.1 + 1) := by decide +kernel
  have hiff : ∀ a b, a < 4 → b < 4 → (Adj path4 a b ↔ a = b + 1 ∨ b = a + 1) := by
    intro a b ha hb
    have hk := hadj ⟨a, ha⟩ ⟨b, hb⟩
    dsimp only at hk
    unfold Adj
    cases hm : path4.nbrs a with
    | ok r =>
      rw [hm] at hk
      simpa using decide_eq_decide.mp hk
    | _ =>
      rw [hm] at hk
      simpa using hk
  have hup : ∀ k v, v + k < 4 → Walk (Adj path4) k v (v + k) := by
    intro k
    induction k with
    | zero => intro v _; rfl
    | succ k ih => intro v hv; exact ⟨v + k, ih v (by omega), (hiff _ _ (by omega) (by omega)).mpr (by omega)⟩
  have hlow : ∀ k v w, v < 4 → Walk (Adj path4) k v w → w < 4 ∧ pathDist v w ≤ k := by
    intro k
    induction k with
    | zero => rintro v w hv rfl; exact ⟨hv, by unfold pathDist; omega⟩
    | succ k ih =>
      rintro v w hv ⟨x, hx, he⟩
      obtain ⟨h1, h2⟩ := ih v x hv hx
      have hw := (adj_lt path4_reachable he).2
      have := (hiff x w h1 hw).mp he
      exact ⟨hw, by unfold pathDist at *; omega⟩
  intro v w hv hw hne
  have hv4 : v < 4 := hv
  have hw4 : w < 4 := hw
  refine ⟨⟨v, rfl, ?_⟩, ?_⟩
  · rcases Nat.lt_or_ge v w with hlt | hge
    · have := hup (pathDist v w) v (by unfold pathDist; omega)
      rwa [show v + pathDist v w = w by unfold pathDist; omega] at this
    · have := hup (pathDist v w) w (by unfold pathDist; omega)
      rw [show w + pathDist v w = v by unfold pathDist; omega] at this
      exact this.symm fun a b => (c02_symmetric _ path4_reachable a b).mp
  · rintro j hj _ rfl hwalk
    have := (hlow j _ w hv4 hwalk).2
    omega

/-- A path cut after its first vertex: both parts have radius at most one, and the next iteration gives two edges. -/
example : Cover path4 [[0], [1, 2, 3]] ∧ (∀ p ∈ ([[0], [1, 2, 3]] : List (List Nat)), Within (Adj path4) 1 p) := by
  refine ⟨⟨⟨by decide, by decide, by simp [List.disjoint_left]⟩, by decide, by decide, by decide⟩, ?_⟩
  intro p hp
  simp only [List.mem_cons, List.not_mem_nil, or_false] at hp
  rcases hp with rfl | rfl
  · exact ⟨0, by simp, fun u hu => ⟨0, by omega, by
      obtain rfl : u = 0 := by simpa using hu
      exact isDist_zero.mpr rfl⟩⟩
  · refine ⟨2, by simp, fun u hu => ?_⟩
    simp only [List.mem_cons, List.not_mem_nil, or_false] at hu
    by_cases h2 : u = 2
    · exact ⟨0, by omega, isDist_zero.mpr h2⟩
    · refine ⟨_, ?_, path4_dist 2 u (by decide) (by change u < 4; omega) (Ne.symm h2)⟩
      unfold pathDist
      omega

end Disa.Props
