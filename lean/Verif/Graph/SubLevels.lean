import Verif.Spec.Subgraph
import Verif.Graph.Generator

/-! # Growing a subgraph -/

namespace Disa
open Spec Graph
namespace Subgraph

/-! ### Tables indexed by the elements of a list -/

/-- `out` holds `vals[j]` at `l[j]` and the reserved index elsewhere. -/
structure Scatter (l vals out : List Nat) (n : Nat) : Prop where
  len : out.length = n
  vlen : vals.length = l.length
  val : ∀ (j v k : Nat), l[j]? = some v → vals[j]? = some k → out[v]? = some k
  other : ∀ v, v < n → v ∉ l → out[v]? = some sizeMax

theorem Scatter.nil (n : Nat) : Scatter [] [] (List.replicate n sizeMax) n :=
  ⟨by simp, rfl, by simp, fun v hv _ => by simp [hv]⟩

theorem Scatter.snoc {l vals out : List Nat} {n : Nat} (h : Scatter l vals out n) {v k : Nat} (hv : v < n) (hl : v ∉ l) :
    Scatter (l ++ [v]) (vals ++ [k]) (out.set v k) n := by
  refine ⟨by simp [h.len], by simp [h.vlen], ?_, ?_⟩
  · intro j u x hu hx
    rw [List.getElem?_append] at hu hx
    rw [h.vlen] at hx
    by_cases hj : j < l.length
    · rw [if_pos hj] at hu hx
      have hne : v ≠ u := fun e => hl (e ▸ List.mem_of_getElem? hu)
      rw [List.getElem?_set_ne hne]
      exact h.val j u x hu hx
    · rw [if_neg hj] at hu hx
      cases hjl : j - l.length with
      | zero =>
        rw [hjl] at hu hx
        simp only [List.getElem?_cons_zero, Option.some.injEq] at hu hx
        subst hu; subst hx
        rw [List.getElem?_set_self (by rw [h.len]; exact hv)]
      | succ i => rw [hjl] at hu; simp at hu
  · intro u hu hul
    simp only [List.mem_append, List.mem_singleton, not_or] at hul
    rw [List.getElem?_set_ne (fun e => hul.2 e.symm)]
    exact h.other u hu hul.1

theorem Scatter.dom {l vals out : List Nat} {n : Nat} (h : Scatter l vals out n) {v k : Nat} (ho : out[v]? = some k)
    (hk : k ≠ sizeMax) : ∃ j : Nat, l[j]? = some v ∧ vals[j]? = some k := by
  have hv : v < n := by
    have := (List.getElem?_eq_some_iff.mp ho).1
    rw [h.len] at this; exact this
  by_cases hl : v ∈ l
  · obtain ⟨j, hj, hjv⟩ := List.mem_iff_getElem.mp hl
    have h1 : l[j]? = some v := by rw [List.getElem?_eq_getElem hj, hjv]
    have h2 : vals[j]? = some (vals[j]'(by rw [h.vlen]; exact hj)) := List.getElem?_eq_getElem _
    have h3 := h.val j v _ h1 h2
    rw [ho] at h3
    exact ⟨j, h1, by rw [h2]; exact h3.symm⟩
  · rw [h.other v hv hl] at ho
    exact absurd (Option.some.inj ho).symm hk

theorem take_succ' {l : List α} {i : Nat} (h : i < l.length) : l.take (i + 1) = l.take i ++ [l[i]] := by
  rw [List.take_succ_eq_append_getElem h]

theorem notMem_take {l : List Nat} (hn : l.Nodup) {i : Nat} (h : i < l.length) : l[i] ∉ l.take i := by
  intro hm
  obtain ⟨j, hj, hjv⟩ := List.mem_iff_getElem.mp hm
  rw [List.length_take] at hj
  rw [List.getElem_take] at hjv
  have := (List.Nodup.getElem_inj_iff hn).mp hjv
  omega

/-! ### The invariant -/

/-- `s` represents the vertices of `parent` within distance `m` of `S`. -/
structure SubInv (parent : Graph) (S : Nat → Prop) (m : Nat) (s : Subgraph) : Prop where
  reach : Reachable false s.graph
  size : s.graph.sizeVertex = s.l2g.length
  nodup : s.l2g.Nodup
  lt : ∀ v ∈ s.l2g, v < parent.sizeVertex
  mem : ∀ v, v ∈ s.l2g ↔ ∃ k, k ≤ m ∧ IsDist (Adj parent) S v k
  adj : ∀ (i j u v : Nat), s.l2g[i]? = some u → s.l2g[j]? = some v → (Adj s.graph i j ↔ Adj parent u v)
  lev : (s.lev = [] ∧ ∀ v ∈ s.l2g, S v) ∨ (s.lev.length = s.l2g.length ∧
    ∀ (i v k : Nat), s.l2g[i]? = some v → s.lev[i]? = some k → IsDist (Adj parent) S v k)

/-- The levels are written out, and `c` is the largest. -/
structure Full (parent : Graph) (S : Nat → Prop) (c : Nat) (s : Subgraph) : Prop where
  len : s.lev.length = s.l2g.length
  dist : ∀ (i v k : Nat), s.l2g[i]? = some v → s.lev[i]? = some k → IsDist (Adj parent) S v k
  le : ∀ k ∈ s.lev, k ≤ c
  att : (s.l2g = [] ∧ c = 0) ∨ c ∈ s.lev

theorem le_maxElem {l : List Nat} {x : Nat} (h : x ∈ l) : x ≤ maxElem l := by
  have := (maxElem_lt (l := l) (n := maxElem l + 1)).mp (by omega)
  have := this.2 x h
  omega

theorem maxElem_mem {l : List Nat} (h : l ≠ []) : maxElem l ∈ l := by
  by_contra hc
  have h0 : 0 < maxElem l := by
    rcases Nat.eq_zero_or_pos (maxElem l) with h1 | h1
    · exfalso
      obtain ⟨x, hx⟩ := List.exists_mem_of_ne_nil l h
      have := le_maxElem hx
      have : x = maxElem l := by omega
      exact hc (this ▸ hx)
    · exact h1
  have := (maxElem_lt (l := l) (n := maxElem l)).mpr ⟨h0, fun x hx => by
    have h1 := le_maxElem hx
    have h2 : x ≠ maxElem l := fun e => hc (e ▸ hx)
    omega⟩
  omega

/-- The subgraph after the levels have been written out, and the current maximum, as in `update_levels`. -/
def fill (s : Subgraph) : Subgraph := if s.lev.isEmpty then { s with lev := List.replicate s.sizeVertex 0 } else s

def curMax (s : Subgraph) : Nat := if s.lev.isEmpty then 0 else maxElem s.lev

theorem SubInv.fill {parent : Graph} {S : Nat → Prop} {m : Nat} {s : Subgraph} (h : SubInv parent S m s) :
    SubInv parent S m s.fill ∧ Full parent S s.curMax s.fill := by
  unfold Subgraph.fill curMax
  by_cases hl : s.lev = []
  · have he : s.lev.isEmpty = true := by simp [hl]
    rw [if_pos he, if_pos he]
    have hS : ∀ v ∈ s.l2g, S v := by
      rcases h.lev with ⟨_, h1⟩ | ⟨h1, _⟩
      · exact h1
      · rw [hl] at h1
        intro v hv
        have : s.l2g = [] := by
          apply List.eq_nil_of_length_eq_zero; rw [← h1]; rfl
        rw [this] at hv; simp at hv
    have hd : ∀ (i v k : Nat), s.l2g[i]? = some v → (List.replicate s.sizeVertex 0)[i]? = some k →
        IsDist (Adj parent) S v k := by
      intro i v k hv hk
      have := List.mem_of_getElem? hk
      rw [List.mem_replicate] at this
      rw [this.2]
      exact isDist_zero.mpr (hS v (List.mem_of_getElem? hv))
    have hlen : (List.replicate s.sizeVertex 0).length = s.l2g.length := by
      rw [List.length_replicate]; exact h.size
    refine ⟨⟨h.reach, h.size, h.nodup, h.lt, h.mem, h.adj, .inr ⟨hlen, hd⟩⟩, ⟨hlen, hd, ?_, ?_⟩⟩
    · intro k hk
      simp only [List.mem_replicate] at hk
      omega
    · by_cases h0 : s.l2g = []
      · exact .inl ⟨h0, rfl⟩
      · right
        simp only [List.mem_replicate, and_true]
        have : s.sizeVertex = s.l2g.length := h.size
        rw [this]
        exact fun e => h0 (List.eq_nil_of_length_eq_zero e)
  · have he : s.lev.isEmpty = false := by simpa using hl
    rw [he]
    simp only [Bool.false_eq_true, if_false]
    refine ⟨h, ?_⟩
    rcases h.lev with ⟨h1, _⟩ | ⟨h1, h2⟩
    · exact absurd h1 hl
    · exact ⟨h1, h2, fun k hk => le_maxElem hk, .inr (maxElem_mem hl)⟩

/-! ### Loading the traversal -/

section Grow
variable {parent : Graph} {S : Nat → Prop} {m c : Nat} {s : Subgraph}

theorem load_ok (h : SubInv parent S m s) (hf : Full parent S c s) :
    ∃ st, loop s.sizeVertex (s.loadStep c)
        ([], List.replicate parent.sizeVertex sizeMax, List.replicate parent.sizeVertex sizeMax) = .ok st ∧
      st.1 = ((List.range s.l2g.length).filter (fun j => s.lev.getD j 0 == c)).map (fun j => s.l2g.getD j 0) ∧
      Scatter s.l2g s.lev st.2.1 parent.sizeVertex ∧
      Scatter s.l2g (List.range s.l2g.length) st.2.2 parent.sizeVertex := by
  have hsz : s.sizeVertex = s.l2g.length := h.size
  rw [hsz]
  obtain ⟨st, h1, h2, h3, h4⟩ := loop_inv (n := s.l2g.length) (body := s.loadStep c)
    (s := ([], List.replicate parent.sizeVertex sizeMax, List.replicate parent.sizeVertex sizeMax))
    (fun (i : Nat) (st : List Nat × List Nat × List Nat) =>
      st.1 = ((List.range i).filter (fun j => s.lev.getD j 0 == c)).map (fun j => s.l2g.getD j 0) ∧
      Scatter (s.l2g.take i) (s.lev.take i) st.2.1 parent.sizeVertex ∧
      Scatter (s.l2g.take i) (List.range i) st.2.2 parent.sizeVertex)
    ⟨rfl, by simpa using Scatter.nil _, by simpa using Scatter.nil _⟩
    (by
      rintro i ⟨q, levels, g2l⟩ hi ⟨h1, h2, h3⟩
      simp only at h1 h2 h3
      have hi' : i < s.lev.length := by rw [hf.len]; exact hi
      have hlt := h.lt _ (List.getElem_mem hi)
      have hnm := notMem_take h.nodup hi
      have e1 : rd s.lev i = .ok s.lev[i] := rd_ok hi'
      have e2 : rd s.l2g i = .ok s.l2g[i] := rd_ok hi
      have e3 : wr levels s.l2g[i] s.lev[i] = .ok (levels.set s.l2g[i] s.lev[i]) := wr_ok (by rw [h2.len]; exact hlt)
      have e4 : wr g2l s.l2g[i] i = .ok (g2l.set s.l2g[i] i) := wr_ok (by rw [h3.len]; exact hlt)
      refine ⟨(if s.lev[i] == c then q ++ [s.l2g[i]] else q, levels.set s.l2g[i] s.lev[i], g2l.set s.l2g[i] i),
        by simp only [loadStep, e1, e2, e3, e4, Out.ok_bind, Out.pure_eq], ?_, ?_, ?_⟩
      · simp only
        rw [List.range_succ, List.filter_append, List.map_append, ← h1]
        have hgd : s.lev.getD i 0 = s.lev[i] := by simp [hi']
        have hgd' : s.l2g.getD i 0 = s.l2g[i] := by simp [hi]
        by_cases hc : s.lev[i] = c
        · rw [if_pos (by simpa using hc)]
          rw [List.filter_cons_of_pos (by rw [hgd]; simpa using hc)]
          simp [hi]
        · rw [if_neg (by simpa using hc)]
          rw [List.filter_cons_of_neg (by rw [hgd]; simpa using hc)]
          simp
      · simp only
        rw [take_succ' hi, take_succ' hi']
        exact h2.snoc hlt hnm
      · simp only
        rw [take_succ' hi, List.range_succ]
        exact h3.snoc hlt hnm)
  rw [List.take_of_length_le (Nat.le_refl _)] at h3 h4
  rw [List.take_of_length_le (by rw [hf.len])] at h3
  exact ⟨st, h1, h2, h3, h4⟩

theorem dist_lt (h : SubInv parent S m s) {v k : Nat} (hp : Reachable false parent) (hd : IsDist (Adj parent) S v k) :
    k < parent.sizeVertex ∧ v < parent.sizeVertex := by
  have hS : ∀ s', S s' → s' < parent.sizeVertex := fun s' hs' =>
    h.lt s' ((h.mem s').mpr ⟨0, Nat.zero_le _, isDist_zero.mpr hs'⟩)
  refine ⟨hd.lt_card hS (fun u v huv => (adj_lt hp huv).2), ?_⟩
  cases k with
  | zero => exact hS v (isDist_zero.mp hd)
  | succ k => obtain ⟨p, _, he⟩ := hd.pred; exact (adj_lt hp he).2

/-- The current maximum is a distance not above `m`, so everything up to it is in the subgraph. -/
theorem mem_of_le (h : SubInv parent S m s) (hf : Full parent S c s) {v k : Nat} (hd : IsDist (Adj parent) S v k)
    (hk : k ≤ c) : v ∈ s.l2g := by
  rcases hf.att with ⟨h0, _⟩ | hc
  · exfalso
    obtain ⟨⟨s', hs', _⟩, _⟩ := hd
    have := (h.mem s').mpr ⟨0, Nat.zero_le _, isDist_zero.mpr hs'⟩
    rw [h0] at this; simp at this
  · obtain ⟨j, hj, hjc⟩ := List.mem_iff_getElem.mp hc
    have hj' : j < s.l2g.length := by rw [← hf.len]; exact hj
    have hcd := hf.dist j s.l2g[j] c (List.getElem?_eq_getElem hj') (by rw [List.getElem?_eq_getElem hj, hjc])
    obtain ⟨k', hk', hd'⟩ := (h.mem _).mp (List.getElem_mem hj')
    have := hcd.unique hd'
    exact (h.mem v).mpr ⟨k, by omega, hd⟩

theorem lev_of_mem (hf : Full parent S c s) {v : Nat} (hv : v ∈ s.l2g) :
    ∃ (j k : Nat), s.l2g[j]? = some v ∧ s.lev[j]? = some k ∧ IsDist (Adj parent) S v k ∧ k ≤ c := by
  obtain ⟨j, hj, hjv⟩ := List.mem_iff_getElem.mp hv
  have hj' : j < s.lev.length := by rw [hf.len]; exact hj
  have h1 : s.l2g[j]? = some v := by rw [List.getElem?_eq_getElem hj, hjv]
  have h2 : s.lev[j]? = some s.lev[j] := List.getElem?_eq_getElem hj'
  exact ⟨j, _, h1, h2, hf.dist j v _ h1 h2, hf.le _ (List.getElem_mem hj')⟩

theorem load_start (hp : Reachable false parent) {P : List (List Nat)} (hr : parent.Rep P)
   
    (h : SubInv parent S m s) (hf : Full parent S c s) {M : Nat} (hM : c < M) {levels : List Nat}
    (hl : Scatter s.l2g s.lev levels parent.sizeVertex) :
    LStart P S M (((List.range s.l2g.length).filter (fun j => s.lev.getD j 0 == c)).map (fun j => s.l2g.getD j 0)) levels := by
  have hn := reach_small hp
  have hE : rowRel P = Adj parent := hr.adj_eq.symm
  have hvis : (fun (v : Nat) => ∃ k, k ≠ sizeMax ∧ levels[v]? = some k) = (fun v => v ∈ s.l2g) := by
    funext v
    apply propext
    constructor
    · rintro ⟨k, hk, ho⟩
      obtain ⟨j, hj, _⟩ := hl.dom ho hk
      exact List.mem_of_getElem? hj
    · intro hv
      obtain ⟨j, k, h1, h2, h3, _⟩ := lev_of_mem hf hv
      have := (dist_lt h hp h3).1
      exact ⟨k, by omega, hl.val j v k h1 h2⟩
  have hq : ∀ v, v ∈ ((List.range s.l2g.length).filter (fun j => s.lev.getD j 0 == c)).map (fun j => s.l2g.getD j 0) →
      IsDist (Adj parent) S v c := by
    intro v hv
    obtain ⟨j, hj, rfl⟩ := List.mem_map.mp hv
    obtain ⟨hj1, hj2⟩ := List.mem_filter.mp hj
    have hjl : j < s.l2g.length := by simpa using hj1
    have hjl' : j < s.lev.length := by rw [hf.len]; exact hjl
    have e : s.lev[j] = c := by simpa [hjl'] using hj2
    have := hf.dist j s.l2g[j] s.lev[j] (List.getElem?_eq_getElem hjl) (List.getElem?_eq_getElem hjl')
    simpa [hjl, e] using this
  have hperm : (((List.range s.l2g.length).filter (fun j => !(s.lev.getD j 0 == c))).map (fun j => s.l2g.getD j 0) ++
      ((List.range s.l2g.length).filter (fun j => s.lev.getD j 0 == c)).map (fun j => s.l2g.getD j 0)).Perm s.l2g := by
    rw [← List.map_append]
    have h1 : (List.range s.l2g.length).map (fun j => s.l2g.getD j 0) = s.l2g := by
      apply List.ext_getElem
      · simp
      · intro i hi1 hi2
        simp [hi2]
    have h2 := (List.perm_append_comm.trans
      (List.filter_append_perm (fun j => s.lev.getD j 0 == c) (List.range s.l2g.length))).map (fun j => s.l2g.getD j 0)
    rw [h1] at h2
    exact h2
  refine ⟨by rw [hl.len, hr.sizeVertex], ⟨((List.range s.l2g.length).filter
      (fun j => !(s.lev.getD j 0 == c))).map (fun j => s.l2g.getD j 0), ?_⟩, ?_⟩
  · rw [hvis, hE]
    constructor
    · intro v
      rw [← hperm.mem_iff, List.mem_append]
    · exact hperm.nodup_iff.mpr h.nodup
    · intro v hv
      obtain ⟨j, k, _, _, h3, h4⟩ := lev_of_mem hf hv
      exact ⟨k, by omega, h3⟩
    · intro s' hs'
      exact (h.mem s').mpr ⟨0, Nat.zero_le _, isDist_zero.mpr hs'⟩
    · apply List.Pairwise.imp_of_mem (R := fun _ _ => True)
      · intro a b ha hb _ j k hj hk
        rw [hj.unique (hq a ha), hk.unique (hq b hb)]
      · exact List.pairwise_of_forall (fun _ _ => trivial)
    · intro u hu v hv j k hj hk
      rw [hk.unique (hq v hv)]
      obtain ⟨_, k', _, _, h3, h4⟩ := lev_of_mem hf (hperm.mem_iff.mp (List.mem_append_left _ hu))
      rw [hj.unique h3]; exact h4
    · intro f rest hfr v hv j k hj hk
      have := hj.unique (hq f (by rw [hfr]; simp))
      have := hk.unique (hq v hv)
      omega
    · intro u hu k hk hke w hw
      obtain ⟨j, hj, hju⟩ := List.mem_map.mp hu
      obtain ⟨hj1, hj2⟩ := List.mem_filter.mp hj
      have hjl : j < s.l2g.length := by simpa using hj1
      have hjl' : j < s.lev.length := by rw [hf.len]; exact hjl
      have e : s.lev[j] ≠ c := by simpa [hjl'] using hj2
      have hd := hf.dist j s.l2g[j] s.lev[j] (List.getElem?_eq_getElem hjl) (List.getElem?_eq_getElem hjl')
      have hju' : s.l2g[j] = u := by simpa [hjl] using hju
      rw [hju'] at hd
      have hle := hf.le _ (List.getElem_mem hjl')
      obtain ⟨i, hi, hdi⟩ := hd.succ_le hw
      exact mem_of_le h hf hdi (by omega)
  · intro v k hk hks
    obtain ⟨j, h1, h2⟩ := hl.dom hk hks
    rw [hE]
    exact hf.dist j v k h1 h2

/-! ### New vertices -/

/-- New vertices below `i`, given the levels after the traversal. -/
def added (c M : Nat) (D : List Nat) (i : Nat) : List Nat := (List.range i).filter fun v => isNewLevel c M (D.getD v 0)

theorem mem_added {M : Nat} {D : List Nat} {i v : Nat} :
    v ∈ added c M D i ↔ v < i ∧ c < D.getD v 0 ∧ D.getD v 0 ≤ M := by
  simp [added, isNewLevel]

theorem added_succ (c M : Nat) (D : List Nat) (i : Nat) :
    added c M D (i + 1) = added c M D i ++ if isNewLevel c M (D.getD i 0) then [i] else [] := by
  unfold added
  rw [List.range_succ, List.filter_append]
  cases h : isNewLevel c M (D.getD i 0) <;> simp only [List.filter_cons, h] <;> simp

/-- What the traversal says about a vertex. -/
theorem level_cases {M n : Nat} {D : List Nat} {E : Nat → Nat → Prop} (hD : IsLevels E S M n D) (hM : M < sizeMax) {v : Nat}
    (hv : v < n) : D.getD v 0 ≤ M ↔ ∃ k, k ≤ M ∧ IsDist E S v k ∧ D.getD v 0 = k := by
  rcases hD.2 v hv with ⟨k, h1, h2, h3⟩ | ⟨h1, h2⟩
  · have : D.getD v 0 = k := by simp [h3]
    rw [this]
    exact ⟨fun _ => ⟨k, h1, h2, rfl⟩, fun _ => h1⟩
  · have : D.getD v 0 = sizeMax := by simp [h1]
    rw [this]
    constructor
    · intro h; omega
    · rintro ⟨k, hk, hd, _⟩; exact absurd hd (h2 k hk)

theorem map_ok (h : SubInv parent S m s) (hf : Full parent S c s) {M : Nat} (hM : M < sizeMax)
    {D g2l : List Nat} (hD : IsLevels (Adj parent) S M parent.sizeVertex D)
    (hg : Scatter s.l2g (List.range s.l2g.length) g2l parent.sizeVertex) :
    ∃ g2l', loop D.length (mapStep c M D) (g2l, s.l2g, s.lev) =
        .ok (g2l', s.l2g ++ added c M D parent.sizeVertex, s.lev ++ (added c M D parent.sizeVertex).map (D.getD · 0)) ∧
      Scatter (s.l2g ++ added c M D parent.sizeVertex)
        (List.range (s.l2g ++ added c M D parent.sizeVertex).length) g2l' parent.sizeVertex := by
  rw [hD.1]
  obtain ⟨st, h1, h2, h3, h4⟩ := loop_inv (n := parent.sizeVertex) (body := mapStep c M D) (s := (g2l, s.l2g, s.lev))
    (fun (i : Nat) (st : List Nat × List Nat × List Nat) =>
      st.2.1 = s.l2g ++ added c M D i ∧ st.2.2 = s.lev ++ (added c M D i).map (D.getD · 0) ∧
      Scatter st.2.1 (List.range st.2.1.length) st.1 parent.sizeVertex)
    ⟨by simp [added], by simp [added], hg⟩
    (by
      rintro i ⟨g, l, lv⟩ hi ⟨h1, h2, h3⟩
      simp only at h1 h2 h3
      have hiD : i < D.length := by rw [hD.1]; exact hi
      have e1 : rd D i = .ok D[i] := rd_ok hiD
      have hgd : D.getD i 0 = D[i] := by simp [hiD]
      rw [added_succ, hgd]
      unfold mapStep
      simp only [e1, Out.ok_bind]
      by_cases hnew : isNewLevel c M D[i] = true
      · rw [if_pos hnew, if_pos hnew]
        have e2 : wr g i l.length = .ok (g.set i l.length) := wr_ok (by rw [h3.len]; exact hi)
        refine ⟨(g.set i l.length, l ++ [i], lv ++ [D[i]]), by simp only [e2, Out.ok_bind, Out.pure_eq], ?_, ?_, ?_⟩
        · simp only; rw [h1, List.append_assoc]
        · simp only; rw [h2, List.map_append, List.append_assoc]; simp [hiD]
        · simp only
          have hni : i ∉ l := by
            rw [h1, List.mem_append, not_or]
            constructor
            · intro hm
              obtain ⟨_, k, _, _, h5, h6⟩ := lev_of_mem hf hm
              simp only [isNewLevel, Bool.and_eq_true, decide_eq_true_eq] at hnew
              obtain ⟨k', _, h7, h8⟩ := (level_cases hD hM hi).mp (by rw [hgd]; exact hnew.2)
              have := h5.unique h7
              omega
            · intro hm
              have := (mem_added.mp hm).1
              omega
          have := h3.snoc (k := l.length) hi hni
          rw [List.length_append, List.length_singleton, List.range_succ]
          exact this
      · rw [if_neg hnew, if_neg hnew]
        exact ⟨_, rfl, by simp [h1], by simp [h2], h3⟩)
  obtain ⟨g', l', lv'⟩ := st
  simp only at h2 h3 h4
  subst h2; subst h3
  exact ⟨g', h1, h4⟩

/-! ### New edges -/

theorem link_ok {l g2l : List Nat} {n : Nat} (hg2l : Scatter l (List.range l.length) g2l n) (hnd : l.Nodup)
    (hlen : l.length < sizeMax) {a v : Nat} (ha : l[a]? = some v) (r : List Nat) (hr : ∀ w ∈ r, w < n ∧ w ≠ v) (g : Graph)
    (hreach : Reachable false g) (hs : g.sizeVertex ≤ l.length) :
    ∃ g', r.foldlM (linkStep g2l a) g = .ok g' ∧ Reachable false g' ∧ g'.sizeVertex ≤ l.length ∧
      g.sizeVertex ≤ g'.sizeVertex ∧
      ∀ x y, Adj g' x y ↔ Adj g x y ∨ ∃ w ∈ r, ∃ b : Nat, l[b]? = some w ∧ ((x = a ∧ y = b) ∨ (x = b ∧ y = a)) := by
  induction r generalizing g with
  | nil => exact ⟨g, rfl, hreach, hs, Nat.le_refl _, by simp⟩
  | cons w r ih =>
    obtain ⟨hwn, hwv⟩ := hr w (by simp)
    have hr' : ∀ w ∈ r, w < n ∧ w ≠ v := fun w hw => hr w (by simp [hw])
    have hal : a < l.length := (List.getElem?_eq_some_iff.mp ha).1
    by_cases hwl : w ∈ l
    · obtain ⟨b, hb, hbw⟩ := List.mem_iff_getElem.mp hwl
      have hb1 : l[b]? = some w := by rw [List.getElem?_eq_getElem hb, hbw]
      have hb2 : g2l[w]? = some b := hg2l.val b w b hb1 (by simp [hb])
      have hab : a ≠ b := by
        rintro rfl
        rw [ha] at hb1
        exact hwv (Option.some.inj hb1).symm
      obtain ⟨g1, _, h1, h2, h3, h4⟩ := insert_adj hreach (a, b) hab (by simp only; omega)
      simp only at h4
      obtain ⟨g', h5, h6, h7, h8, h9⟩ := ih hr' g1 h2 (by omega)
      refine ⟨g', ?_, h6, h7, by omega, ?_⟩
      · rw [List.foldlM_cons]
        have : linkStep g2l a g w = .ok g1 := by
          unfold linkStep
          rw [rd_of_some hb2, Out.ok_bind, if_pos (by simp; omega), h1]
          rfl
        rw [this, Out.ok_bind, h5]
      · intro x y
        rw [h9, h3]
        constructor
        · rintro ((hx | hx) | ⟨w', hw', b', hb', hx⟩)
          · exact .inl hx
          · refine .inr ⟨w, by simp, b, hb1, ?_⟩
            unfold sameEdge at hx
            simp only [Prod.mk.injEq] at hx
            tauto
          · exact .inr ⟨w', by simp [hw'], b', hb', hx⟩
        · rintro (hx | ⟨w', hw', b', hb', hx⟩)
          · exact .inl (.inl hx)
          · rcases List.mem_cons.mp hw' with rfl | hw'
            · have : b' = b := by
                have hb'l := (List.getElem?_eq_some_iff.mp hb').1
                rw [List.getElem?_eq_getElem hb'l, Option.some.injEq] at hb'
                exact (List.Nodup.getElem_inj_iff hnd).mp (hb'.trans hbw.symm)
              subst this
              left; right
              unfold sameEdge
              simp only [Prod.mk.injEq]
              tauto
            · exact .inr ⟨w', hw', b', hb', hx⟩
    · have hb2 : g2l[w]? = some sizeMax := hg2l.other w hwn hwl
      obtain ⟨g', h5, h6, h7, h8, h9⟩ := ih hr' g hreach hs
      refine ⟨g', ?_, h6, h7, h8, ?_⟩
      · rw [List.foldlM_cons]
        have : linkStep g2l a g w = .ok g := by
          unfold linkStep
          rw [rd_of_some hb2, Out.ok_bind, if_neg (by simp)]
          rfl
        rw [this, Out.ok_bind, h5]
      · intro x y
        rw [h9]
        constructor
        · rintro (hx | ⟨w', hw', b', hb', hx⟩)
          · exact .inl hx
          · exact .inr ⟨w', by simp [hw'], b', hb', hx⟩
        · rintro (hx | ⟨w', hw', b', hb', hx⟩)
          · exact .inl hx
          · rcases List.mem_cons.mp hw' with rfl | hw'
            · exact absurd (List.mem_of_getElem? hb') hwl
            · exact .inr ⟨w', hw', b', hb', hx⟩

theorem edges_ok (hp : Reachable false parent) {M : Nat} {D l g2l : List Nat}
    (hD : D.length = parent.sizeVertex) (hg2l : Scatter l (List.range l.length) g2l parent.sizeVertex) (hnd : l.Nodup)
    (hlt : ∀ v ∈ l, v < parent.sizeVertex) (hN : ∀ v ∈ added c M D parent.sizeVertex, v ∈ l) (g : Graph)
    (hreach : Reachable false g) (hs : g.sizeVertex ≤ l.length) :
    ∃ g', loop D.length (edgeStep parent c M D g2l) g = .ok g' ∧ Reachable false g' ∧ g'.sizeVertex ≤ l.length ∧
      g.sizeVertex ≤ g'.sizeVertex ∧
      ∀ x y, Adj g' x y ↔ Adj g x y ∨ ∃ u w, l[x]? = some u ∧ l[y]? = some w ∧ Adj parent u w ∧
        (u ∈ added c M D parent.sizeVertex ∨ w ∈ added c M D parent.sizeVertex) := by
  have hn := reach_small hp
  have hlen : l.length < sizeMax := by
    have h1 : l.length ≤ (List.range parent.sizeVertex).length :=
      (hnd.subperm (fun v hv => List.mem_range.mpr (hlt v hv))).length_le
    rw [List.length_range] at h1
    omega
  obtain ⟨P, hr, hg⟩ := reach_rep hp
  have hsym : ∀ u v, Adj parent u v → Adj parent v u := by
    intro u v huv
    rw [hr.adj_eq] at huv ⊢
    exact hg.symm rfl _ _ huv
  rw [hD]
  obtain ⟨g', h1, h2, h3, h4, h5⟩ := loop_inv (n := parent.sizeVertex) (body := edgeStep parent c M D g2l) (s := g)
    (fun (i : Nat) (g' : Graph) => Reachable false g' ∧ g'.sizeVertex ≤ l.length ∧ g.sizeVertex ≤ g'.sizeVertex ∧
      ∀ x y, Adj g' x y ↔ Adj g x y ∨ ∃ u w, l[x]? = some u ∧ l[y]? = some w ∧ Adj parent u w ∧
        (u ∈ added c M D i ∨ w ∈ added c M D i))
    ⟨hreach, hs, Nat.le_refl _, by simp [added]⟩
    (by
      rintro i g1 hi ⟨k1, k2, k3, k4⟩
      have hiD : i < D.length := by rw [hD]; exact hi
      have e1 : rd D i = .ok D[i] := rd_ok hiD
      have hgd : D.getD i 0 = D[i] := by simp [hiD]
      unfold edgeStep
      simp only [e1, Out.ok_bind, added_succ, hgd]
      by_cases hnew : isNewLevel c M D[i] = true
      · rw [if_pos hnew, if_pos hnew]
        have hmem : i ∈ added c M D parent.sizeVertex := by
          rw [mem_added, hgd]
          simp only [isNewLevel, Bool.and_eq_true, decide_eq_true_eq] at hnew
          exact ⟨hi, hnew⟩
        obtain ⟨a, ha, hai⟩ := List.mem_iff_getElem.mp (hN i hmem)
        have ha1 : l[a]? = some i := by rw [List.getElem?_eq_getElem ha, hai]
        have ha2 : g2l[i]? = some a := hg2l.val a i a ha1 (by simp [ha])
        rw [rd_of_some ha2, Out.ok_bind, hr.nbrs (by rw [← hr.sizeVertex]; exact hi), Out.ok_bind]
        obtain ⟨g2, j1, j2, j3, j4, j5⟩ := link_ok hg2l hnd hlen ha1 (row P i) (fun w hw =>
          ⟨by rw [hr.sizeVertex]; exact hg.range i w hw, by rintro rfl; exact hg.loopless w hw⟩) g1 k1 k2
        refine ⟨g2, j1, j2, j3, by omega, ?_⟩
        intro x y
        rw [j5, k4]
        constructor
        · rintro ((hx | ⟨u, w, hu, hw, hE, hm⟩) | ⟨w, hw, b, hb, hx⟩)
          · exact .inl hx
          · refine .inr ⟨u, w, hu, hw, hE, ?_⟩
            simp only [List.mem_append]; tauto
          · have hE : Adj parent i w := by rw [hr.adj_eq]; exact hw
            rcases hx with ⟨rfl, rfl⟩ | ⟨rfl, rfl⟩
            · exact .inr ⟨i, w, ha1, hb, hE, .inl (by simp)⟩
            · exact .inr ⟨w, i, hb, ha1, hsym _ _ hE, .inr (by simp)⟩
        · rintro (hx | ⟨u, w, hu, hw, hE, hm⟩)
          · exact .inl (.inl hx)
          · simp only [List.mem_append, List.mem_singleton] at hm
            have hidx : ∀ (z : Nat), l[z]? = some i → z = a := by
              intro z hz
              have hzl := (List.getElem?_eq_some_iff.mp hz).1
              rw [List.getElem?_eq_getElem hzl, Option.some.injEq] at hz
              exact (List.Nodup.getElem_inj_iff hnd).mp (hz.trans hai.symm)
            rcases hm with (hm | rfl) | (hm | rfl)
            · exact .inl (.inr ⟨u, w, hu, hw, hE, .inl hm⟩)
            · rw [hr.adj_eq] at hE
              exact .inr ⟨w, hE, y, hw, .inl ⟨hidx x hu, rfl⟩⟩
            · exact .inl (.inr ⟨u, w, hu, hw, hE, .inr hm⟩)
            · have := hsym _ _ hE
              rw [hr.adj_eq] at this
              exact .inr ⟨u, this, x, hu, .inr ⟨rfl, hidx y hw⟩⟩
      · rw [if_neg hnew, if_neg hnew]
        exact ⟨g1, rfl, k1, k2, k3, by simpa using k4⟩)
  exact ⟨g', h1, h2, h3, h4, h5⟩

/-! ### The whole function -/

theorem addLevels_ok (hp : Reachable false parent) (hn0 : 0 < parent.sizeVertex)
    (h : SubInv parent S m s) (hf : Full parent S c s) {M : Nat} (hcM : c < M) (hM : M < sizeMax)
    (hsafe : ∀ k ∈ s.lev, k + 1 < parent.sizeVertex) :
    ∃ s' g2l, s.addLevels parent M c = .ok (s', g2l) ∧ SubInv parent S M s' ∧ s'.hashParent = s.hashParent ∧
      Scatter s'.l2g (List.range s'.l2g.length) g2l parent.sizeVertex ∧ s'.lev.length = s'.l2g.length ∧
      ∃ N, s'.l2g = s.l2g ++ N ∧ N.Pairwise (· < ·) := by
  have hn := reach_small hp
  obtain ⟨P, hr, hg⟩ := reach_rep hp
  obtain ⟨⟨q, levels, g2l⟩, a1, a2, a3, a4⟩ := load_ok h hf
  simp only at a2 a3 a4
  have hst := load_start hp hr h hf hcM a3
  rw [← a2] at hst
  obtain ⟨D, b1, b2⟩ := levelTraversalFrom_ok hr hg (by rintro rfl; rw [hr.sizeVertex] at hn0; simp at hn0)
    (by rw [← hr.sizeVertex]; exact hn) (Nat.le_of_lt hM) hst (by
      intro k hk hks
      obtain ⟨v, hv, hvk⟩ := List.mem_iff_getElem.mp hk
      obtain ⟨j, _, hj⟩ := a3.dom (v := v) (k := k) (by rw [List.getElem?_eq_getElem hv, hvk]) hks
      rw [← hr.sizeVertex]
      exact hsafe k (List.mem_of_getElem? hj))
  rw [← hr.adj_eq, ← hr.sizeVertex] at b2
  obtain ⟨g2l', c1, c2⟩ := map_ok h hf hM b2 a4
  generalize hNdef : added c M D parent.sizeVertex = N at c1 c2
  have hNd : ∀ v ∈ N, ∃ k, c < k ∧ k ≤ M ∧ IsDist (Adj parent) S v k ∧ D.getD v 0 = k := by
    intro v hv
    rw [← hNdef] at hv
    obtain ⟨h1, h2, h3⟩ := mem_added.mp hv
    obtain ⟨k, h4, h5, h6⟩ := (level_cases b2 hM h1).mp h3
    exact ⟨k, by omega, h4, h5, h6⟩
  have hNlt : ∀ v ∈ N, v < parent.sizeVertex := by
    intro v hv
    rw [← hNdef] at hv
    exact (mem_added.mp hv).1
  have hNs : ∀ v ∈ N, v ∉ s.l2g := by
    intro v hv hm
    obtain ⟨_, k, _, _, h5, h6⟩ := lev_of_mem hf hm
    obtain ⟨k', h7, _, h8, _⟩ := hNd v hv
    have := h5.unique h8
    omega
  have hnd : (s.l2g ++ N).Nodup := by
    rw [List.nodup_append]
    refine ⟨h.nodup, ?_, ?_⟩
    · rw [← hNdef]; exact List.nodup_range.filter _
    · intro a ha b hb hab
      subst hab
      exact hNs a hb ha
  have hlt : ∀ v ∈ s.l2g ++ N, v < parent.sizeVertex := by
    intro v hv
    rcases List.mem_append.mp hv with hv | hv
    · exact h.lt v hv
    · exact hNlt v hv
  have hmem : ∀ v, v ∈ s.l2g ++ N ↔ ∃ k, k ≤ M ∧ IsDist (Adj parent) S v k := by
    intro v
    rw [List.mem_append]
    constructor
    · rintro (hv | hv)
      · obtain ⟨_, k, _, _, h5, h6⟩ := lev_of_mem hf hv
        exact ⟨k, by omega, h5⟩
      · obtain ⟨k, _, h6, h7, _⟩ := hNd v hv
        exact ⟨k, h6, h7⟩
    · rintro ⟨k, hk, hd⟩
      by_cases hkc : k ≤ c
      · exact .inl (mem_of_le h hf hd hkc)
      · right
        have hv := (dist_lt h hp hd).2
        rw [← hNdef, mem_added]
        rcases b2.2 v hv with ⟨k', _, h2, h3⟩ | ⟨_, h2⟩
        · have := hd.unique h2
          subst this
          have : D.getD v 0 = k := by simp [h3]
          omega
        · exact absurd hd (h2 k hk)
  have hold : s.graph.sizeVertex ≤ (s.l2g ++ N).length := by rw [h.size, List.length_append]; omega
  obtain ⟨g', d1, d2, d3, d4, d5⟩ := edges_ok (c := c) (M := M) hp b2.1 c2 hnd hlt
    (by rw [hNdef]; intro v hv; exact List.mem_append_right _ hv) s.graph h.reach hold
  rw [hNdef] at d5
  have hidx : ∀ (x u : Nat), (s.l2g ++ N)[x]? = some u → u ∉ N → s.l2g[x]? = some u := by
    intro x u hx hu
    rw [List.getElem?_append] at hx
    split at hx
    · exact hx
    · exact absurd (List.mem_of_getElem? hx) hu
  have hadj : ∀ (i j u v : Nat), (s.l2g ++ N)[i]? = some u → (s.l2g ++ N)[j]? = some v → (Adj g' i j ↔ Adj parent u v) := by
    intro i j u v hu hv
    rw [d5]
    constructor
    · rintro (hx | ⟨u', v', hu', hv', hE, _⟩)
      · obtain ⟨hi, hj⟩ := adj_lt h.reach hx
        rw [h.size] at hi hj
        rw [List.getElem?_append_left hi] at hu
        rw [List.getElem?_append_left hj] at hv
        exact (h.adj i j u v hu hv).mp hx
      · rw [hu] at hu'; rw [hv] at hv'
        cases hu'; cases hv'
        exact hE
    · intro hE
      by_cases hm : u ∈ N ∨ v ∈ N
      · exact .inr ⟨u, v, hu, hv, hE, hm⟩
      · rw [not_or] at hm
        exact .inl ((h.adj i j u v (hidx i u hu hm.1) (hidx j v hv hm.2)).mpr hE)
  have hsz : g'.sizeVertex = (s.l2g ++ N).length := by
    by_cases hN0 : N = []
    · rw [hN0, List.append_nil] at d3 ⊢
      rw [h.size] at d4
      omega
    · have hpos : 0 < N.length := List.length_pos_iff.mpr hN0
      have hi : s.l2g.length + (N.length - 1) < (s.l2g ++ N).length := by rw [List.length_append]; omega
      have hu : (s.l2g ++ N)[s.l2g.length + (N.length - 1)]? = some (N[N.length - 1]'(by omega)) := by
        rw [List.getElem?_append_right (by omega)]
        rw [Nat.add_sub_cancel_left]
        exact List.getElem?_eq_getElem _
      generalize N[N.length - 1]'(by omega) = u at hu
      have hum : u ∈ N := by
        rw [List.getElem?_append_right (by omega)] at hu
        exact List.mem_of_getElem? hu
      obtain ⟨k, h5, h6, h7, _⟩ := hNd u hum
      obtain ⟨k', rfl⟩ : ∃ k', k = k' + 1 := ⟨k - 1, by omega⟩
      obtain ⟨p, hpd, hpe⟩ := h7.pred
      obtain ⟨j, hj, hjp⟩ := List.mem_iff_getElem.mp ((hmem p).mpr ⟨k', by omega, hpd⟩)
      have ha := (hadj j (s.l2g.length + (N.length - 1)) p u (by rw [List.getElem?_eq_getElem hj, hjp]) hu).mpr hpe
      have := (adj_lt d2 ha).2
      rw [List.length_append] at hi d3 ⊢
      omega
  have hlen : (s.lev ++ N.map (D.getD · 0)).length = (s.l2g ++ N).length := by simp [hf.len]
  refine ⟨⟨g', s.l2g ++ N, s.lev ++ N.map (D.getD · 0), s.hashParent⟩, g2l', ?_,
    ⟨d2, hsz, hnd, hlt, hmem, hadj, .inr ⟨hlen, ?_⟩⟩, rfl, c2, hlen, N, rfl,
    by rw [← hNdef]; exact List.pairwise_lt_range.filter _⟩
  · unfold addLevels
    simp only [a1, Out.ok_bind, b1, c1, d1, Out.pure_eq]
  · intro i v k hv hk
    simp only at hv hk
    rw [List.getElem?_append] at hv hk
    rw [hf.len] at hk
    by_cases hi : i < s.l2g.length
    · rw [if_pos hi] at hv hk
      exact hf.dist i v k hv hk
    · rw [if_neg hi] at hv hk
      rw [List.getElem?_map, hv] at hk
      simp only [Option.map_some, Option.some.injEq] at hk
      obtain ⟨k', _, _, h7, h8⟩ := hNd v (List.mem_of_getElem? hv)
      rw [h8] at hk
      subst hk
      exact h7

/-- `add_levels` exits when the parent has no vertices, or when the largest level is the number of vertices minus one. -/
theorem addLevels_exit (hp : Reachable false parent) (h : SubInv parent S m s) (hf : Full parent S c s)
    {M : Nat}
    (hbad : parent.sizeVertex = 0 ∨ ∃ k ∈ s.lev, parent.sizeVertex ≤ k + 1) : s.addLevels parent M c = .exit 1 := by
  have hn := reach_small hp
  obtain ⟨P, hr, hg⟩ := reach_rep hp
  obtain ⟨⟨q, levels, g2l⟩, a1, a2, a3, a4⟩ := load_ok h hf
  simp only at a3
  have : parent.levelTraversalFrom q levels M = .exit 1 := by
    unfold levelTraversalFrom
    rw [hr.empty]
    by_cases h0 : parent.sizeVertex = 0
    · rw [hr.sizeVertex] at h0
      rw [decide_eq_true h0]
      rfl
    · have h0' := h0
      rw [hr.sizeVertex] at h0'
      rw [decide_eq_false h0']
      obtain ⟨k, hk, hkn⟩ : ∃ k ∈ s.lev, parent.sizeVertex ≤ k + 1 := by
        rcases hbad with hb | hb
        · exact absurd hb h0
        · exact hb
      obtain ⟨j, hj, hjk⟩ := List.mem_iff_getElem.mp hk
      have hj' : j < s.l2g.length := by rw [← hf.len]; exact hj
      have e1 : s.l2g[j]? = some s.l2g[j] := List.getElem?_eq_getElem hj'
      have e2 : s.lev[j]? = some k := by rw [List.getElem?_eq_getElem hj, hjk]
      have hkl := (dist_lt h hp (hf.dist j _ k e1 e2)).1
      have e3 := a3.val j _ k e1 e2
      have hmax : ¬ maxElem (levels.map fun l => wrap (l + 1)) < parent.sizeVertex := by
        intro hlt
        have := (maxElem_lt.mp hlt).2 (wrap (k + 1)) (List.mem_map.mpr ⟨k, List.mem_of_getElem? e3, rfl⟩)
        rw [wrap_of_lt (by omega)] at this
        omega
      simp [a3.len, hmax]
  unfold addLevels
  simp only [a1, Out.ok_bind, this]
  rfl

end Grow

end Subgraph
end Disa
