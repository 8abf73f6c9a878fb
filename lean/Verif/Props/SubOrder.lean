import Verif.Props.Subgraph
import Verif.Props.Renumber

/-!
# Property C158: the order of the vertices of a subgraph when levels are added or removed
-/

namespace Disa.Props

open Disa Spec Graph

theorem sublist_filter {l c : List Nat} (hl : l.Nodup) (hc : c.Sublist l) :
    l.filter (fun x => decide (x ∈ c)) = c := by
  induction hc with
  | slnil => rfl
  | @cons c l x hs ih =>
    have hx := List.nodup_cons.mp hl
    rw [List.filter_cons_of_neg (by simpa using fun hm => hx.1 (hs.subset hm))]
    exact ih hx.2
  | @cons_cons c l x hs ih =>
    have hx := List.nodup_cons.mp hl
    rw [List.filter_cons_of_pos (by simp)]
    congr 1
    conv => rhs; rw [← ih hx.2]
    apply List.filter_congr
    intro y hy
    have : y ≠ x := by rintro rfl; exact hx.1 hy
    simp [this]

/-- Two sublists of a list without duplicates that have the same elements are equal. -/
theorem sublist_ext {l a b : List Nat} (hl : l.Nodup) (ha : a.Sublist l) (hb : b.Sublist l)
    (h : ∀ x, x ∈ a ↔ x ∈ b) : a = b := by
  rw [← sublist_filter hl ha, ← sublist_filter hl hb]
  exact List.filter_congr (fun x _ => by simp [h x])

variable {parent : Graph} {S : Nat → Prop} {m M : Nat} {s s' : Subgraph}

theorem fill_l2g (s : Subgraph) : s.fill.l2g = s.l2g := by
  unfold Subgraph.fill; split <;> rfl

theorem curMax_le (h : Subgraph.SubInv parent S m s) : s.curMax ≤ m := by
  obtain ⟨hi, hf⟩ := h.fill
  rcases hf.att with ⟨_, h0⟩ | h0
  · omega
  · obtain ⟨i, hi', hk⟩ := List.mem_iff_getElem.mp h0
    have hl : i < s.fill.l2g.length := by rw [← hf.len]; exact hi'
    have hd := hf.dist i _ _ (List.getElem?_eq_getElem hl) (by rw [List.getElem?_eq_getElem hi', hk])
    obtain ⟨k, h1, h2⟩ := (hi.mem _).mp (List.getElem_mem hl)
    have := hd.unique h2
    omega

theorem removeLevels_l2g {gl gl' : Option (List Nat)} (h : s.removeLevels parent M gl = .ok (s', gl')) :
    s'.l2g.Sublist s.l2g := by
  unfold Subgraph.removeLevels at h
  split at h
  · cases h
  · obtain ⟨g, _, h⟩ := Out.bind_eq_ok.mp h
    cases gl with
    | none =>
      cases h
      simp only
      exact Subgraph.keepAt_sublist _ _
    | some x =>
      obtain ⟨y, _, h⟩ := Out.bind_eq_ok.mp h
      cases h
      simp only
      exact Subgraph.keepAt_sublist _ _

/-- What `update_levels` does to the mapping. -/
theorem update_order (hp : Reachable false parent) (h : Subgraph.SubInv parent S m s) (hf : Nat → Nat) {x : Nat}
    (hx : parent.hash hf false = .ok x) (hpar : s.hashParent = x) (hM : M < sizeMax) {gl gl' : Option (List Nat)}
    (hu : s.updateLevels hf parent M gl = .ok (s', gl')) :
    (m ≤ M → ∃ N, s'.l2g = s.l2g ++ N ∧ N.Pairwise (· < ·)) ∧ (M ≤ m → s'.l2g.Sublist s.l2g) := by
  obtain ⟨hI, _⟩ := Subgraph.updateLevels_inv hp h hf hx hpar hM hu
  have hle := curMax_le h
  rw [Subgraph.updateLevels_eq hp hf hx hpar] at hu
  obtain ⟨hi, hfull⟩ := h.fill
  by_cases hc : s.curMax < M
  · rw [if_pos hc] at hu
    have key : ∃ N, s'.l2g = s.l2g ++ N ∧ N.Pairwise (· < ·) := by
      by_cases hs : 0 < parent.sizeVertex ∧ ∀ k ∈ s.fill.lev, k + 1 < parent.sizeVertex
      · obtain ⟨s1, g2l, h1, _, _, _, _, N, h2, h3⟩ := Subgraph.addLevels_ok hp hs.1 hi hfull hc hM hs.2
        rw [h1] at hu
        cases hu
        exact ⟨N, by rw [h2, fill_l2g], h3⟩
      · exfalso
        rw [Subgraph.addLevels_exit hp hi hfull (by
          by_cases h0 : parent.sizeVertex = 0
          · exact .inl h0
          · right
            by_contra hn
            push Not at hn
            exact hs ⟨by omega, hn⟩)] at hu
        cases hu
    refine ⟨fun _ => key, fun hMm => ?_⟩
    obtain ⟨N, h1, _⟩ := key
    have hN : N = [] := by
      by_contra hne
      obtain ⟨v, hv⟩ := List.exists_mem_of_ne_nil N hne
      obtain ⟨k, hk, hd⟩ := (hI.mem v).mp (by rw [h1]; exact List.mem_append_right _ hv)
      have hv' := (h.mem v).mpr ⟨k, by omega, hd⟩
      have hnd := hI.nodup
      rw [h1, List.nodup_append] at hnd
      exact hnd.2.2 v hv' v hv rfl
    rw [h1, hN, List.append_nil]
  · rw [if_neg hc] at hu
    have hsub := removeLevels_l2g hu
    rw [fill_l2g] at hsub
    refine ⟨fun hmM => ⟨[], ?_, .nil⟩, fun _ => hsub⟩
    rw [List.append_nil]
    refine sublist_ext h.nodup hsub (.refl _) fun v => ?_
    rw [hI.mem, h.mem]
    have : M = m := by omega
    rw [this]

/-- Subgraphs of the same graph agree on a vertex that has the same index in both. -/
theorem view_eq (h : Subgraph.SubInv parent S m s) (h' : Subgraph.SubInv parent S M s') {i v : Nat}
    (e : s.l2g[i]? = some v) (e' : s'.l2g[i]? = some v) :
    s'.localGlobal i = s.localGlobal i ∧ s'.vertexLevel i = s.vertexLevel i ∧ s'.isLocal i = s.isLocal i := by
  have a := h.spec
  have a' := h'.spec
  have hi : i < s.sizeVertex := by
    have : s.sizeVertex = s.l2g.length := h.size
    rw [this]; exact (List.getElem?_eq_some_iff.mp e).1
  have hi' : i < s'.sizeVertex := by
    have : s'.sizeVertex = s'.l2g.length := h'.size
    rw [this]; exact (List.getElem?_eq_some_iff.mp e').1
  have g : s.l2g.getD i 0 = v := by simp [List.getD, e]
  have g' : s'.l2g.getD i 0 = v := by simp [List.getD, e']
  refine ⟨?_, ?_, ?_⟩
  · rw [a.mapping i hi, a'.mapping i hi', g, g']
  · obtain ⟨k, h1, h2⟩ := a.levels i hi
    obtain ⟨k', h1', h2'⟩ := a'.levels i hi'
    rw [g] at h2
    rw [g'] at h2'
    rw [h1, h1', h2.unique h2']
  · obtain ⟨k, h1, h2⟩ := a.isLocal i hi
    obtain ⟨k', h1', h2'⟩ := a'.isLocal i hi'
    rw [g] at h2
    rw [g'] at h2'
    rw [h1, h1']
    have : k' = true ↔ k = true := h2'.trans h2.symm
    cases k <;> cases k' <;> simp_all

theorem localGlobal_some (h : Subgraph.SubInv parent S m s) {i v : Nat} : s.localGlobal i = .ok v ↔ s.l2g[i]? = some v := by
  have hs : s.sizeVertex = s.l2g.length := h.size
  by_cases hi : i < s.sizeVertex
  · rw [h.spec.mapping i hi]
    rw [hs] at hi
    simp [List.getD, hi]
  · unfold Subgraph.localGlobal
    rw [decide_eq_false hi]
    rw [hs] at hi
    simp [hi, assert]

/-- C158: adding levels keeps the index, the level and the edges of every vertex that was there, and the vertices that
come follow in the order of the parent. -/
theorem c158_grow (parent : Graph) (hash : Nat → Nat) (part : List Nat) (m : Nat) (s : Subgraph)
    (hp : Reachable false parent) (hs : part.Pairwise (· < ·)) (hlt : ∀ v ∈ part, v < parent.sizeVertex)
    (hr : SubReach hash parent part (sizeMax - 1) m s) (M : Nat) (hmM : m ≤ M) (hM : M < sizeMax)
    (gl gl' : Option (List Nat)) (s' : Subgraph) (hu : s.updateLevels hash parent M gl = .ok (s', gl')) :
    s.sizeVertex ≤ s'.sizeVertex ∧
    (∀ i, i < s.sizeVertex → s'.localGlobal i = s.localGlobal i ∧ s'.vertexLevel i = s.vertexLevel i ∧
      s'.isLocal i = s.isLocal i) ∧
    (∀ i j, i < s.sizeVertex → j < s.sizeVertex → (Adj s'.graph i j ↔ Adj s.graph i j)) ∧
    ∀ i j u v, s.sizeVertex ≤ i → i < j → s'.localGlobal i = .ok u → s'.localGlobal j = .ok v → u < v := by
  obtain ⟨x, hx⟩ := Subgraph.hash_ok hp hash
  obtain ⟨h, h2⟩ := reach_inv hp hx hs hlt (by decide) hr
  obtain ⟨h', _⟩ := Subgraph.updateLevels_inv hp h hash hx h2 hM hu
  obtain ⟨N, hN, hsort⟩ := (update_order hp h hash hx h2 hM hu).1 hmM
  have hsz : s.sizeVertex = s.l2g.length := h.size
  have hsz' : s'.sizeVertex = s'.l2g.length := h'.size
  have hget : ∀ i, i < s.sizeVertex → s.l2g[i]? = some (s.l2g.getD i 0) ∧ s'.l2g[i]? = some (s.l2g.getD i 0) := by
    intro i hi
    rw [hsz] at hi
    rw [hN, List.getElem?_append_left hi]
    simp [hi]
  refine ⟨by rw [hsz, hsz', hN, List.length_append]; omega, ?_, ?_, ?_⟩
  · intro i hi
    exact view_eq h h' (hget i hi).1 (hget i hi).2
  · intro i j hi hj
    rw [h.adj i j _ _ (hget i hi).1 (hget j hj).1, h'.adj i j _ _ (hget i hi).2 (hget j hj).2]
  · intro i j u v hi hij hiu hjv
    rw [localGlobal_some h', hN] at hiu hjv
    rw [hsz] at hi
    rw [List.getElem?_append_right hi] at hiu
    rw [List.getElem?_append_right (by omega)] at hjv
    obtain ⟨b1, rfl⟩ := List.getElem?_eq_some_iff.mp hiu
    obtain ⟨b2, rfl⟩ := List.getElem?_eq_some_iff.mp hjv
    exact List.pairwise_iff_getElem.mp hsort _ _ b1 b2 (by omega)

/-- C158: removing levels keeps the order of the vertices that stay. -/
theorem c158_shrink (parent : Graph) (hash : Nat → Nat) (part : List Nat) (m : Nat) (s : Subgraph)
    (hp : Reachable false parent) (hs : part.Pairwise (· < ·)) (hlt : ∀ v ∈ part, v < parent.sizeVertex)
    (hr : SubReach hash parent part (sizeMax - 1) m s) (M : Nat) (hmM : M ≤ m) (hm : m < sizeMax)
    (gl gl' : Option (List Nat)) (s' : Subgraph) (hu : s.updateLevels hash parent M gl = .ok (s', gl'))
    (i' j' i j u v : Nat) (hi : s.localGlobal i = .ok u) (hj : s.localGlobal j = .ok v)
    (hi' : s'.localGlobal i' = .ok u) (hj' : s'.localGlobal j' = .ok v) : i' < j' ↔ i < j := by
  obtain ⟨x, hx⟩ := Subgraph.hash_ok hp hash
  obtain ⟨h, h2⟩ := reach_inv hp hx hs hlt (by decide) hr
  have hM : M < sizeMax := by omega
  obtain ⟨h', _⟩ := Subgraph.updateLevels_inv hp h hash hx h2 hM hu
  have hsub := (update_order hp h hash hx h2 hM hu).2 hmM
  rw [localGlobal_some h] at hi hj
  rw [localGlobal_some h'] at hi' hj'
  have mono : ∀ a b p q a' b' : Nat, s.l2g[a]? = some p → s.l2g[b]? = some q → s'.l2g[a']? = some p → s'.l2g[b']? = some q →
      a' < b' → a < b := by
    intro a b p q a' b' ha hb ha' hb' hab
    obtain ⟨f, hf⟩ := List.sublist_iff_exists_orderEmbedding_getElem?_eq.mp hsub
    have e1 := hf a'
    have e2 := hf b'
    rw [ha'] at e1
    rw [hb'] at e2
    have inj : ∀ c d w : Nat, s.l2g[c]? = some w → s.l2g[d]? = some w → c = d := by
      intro c d w hc hd
      obtain ⟨x1, x2⟩ := List.getElem?_eq_some_iff.mp hc
      obtain ⟨y1, y2⟩ := List.getElem?_eq_some_iff.mp hd
      exact (List.Nodup.getElem_inj_iff h.nodup).mp (x2.trans y2.symm)
    rw [inj a _ p ha e1.symm, inj b _ q hb e2.symm]
    exact f.lt_iff_lt.mpr hab
  constructor
  · exact mono i j u v i' j' hi hj hi' hj'
  · intro hij
    by_contra hc
    rcases Nat.lt_or_ge j' i' with hlt | hge
    · have := mono j i v u j' i' hj hi hj' hi' hlt
      omega
    · have : i' = j' := by omega
      subst this
      rw [hi'] at hj'
      cases hj'
      obtain ⟨x1, x2⟩ := List.getElem?_eq_some_iff.mp hi
      obtain ⟨y1, y2⟩ := List.getElem?_eq_some_iff.mp hj
      have := (List.Nodup.getElem_inj_iff h.nodup).mp (x2.trans y2.symm)
      omega

/-- C158: a subgraph that has been given more levels and is then set back to the former number is the former one. -/
theorem c158_back (parent : Graph) (hash : Nat → Nat) (part : List Nat) (m : Nat) (s : Subgraph)
    (hp : Reachable false parent) (hs : part.Pairwise (· < ·)) (hlt : ∀ v ∈ part, v < parent.sizeVertex)
    (hr : SubReach hash parent part (sizeMax - 1) m s) (M : Nat) (hmM : m ≤ M) (hM : M < sizeMax)
    (gl gl' gk gk' : Option (List Nat)) (s' t : Subgraph) (hu : s.updateLevels hash parent M gl = .ok (s', gl'))
    (ht : s'.updateLevels hash parent m gk = .ok (t, gk')) :
    t.sizeVertex = s.sizeVertex ∧ (0 < s.sizeVertex → t.graph = s.graph) ∧
    ∀ i, t.localGlobal i = s.localGlobal i ∧ t.vertexLevel i = s.vertexLevel i ∧ t.isLocal i = s.isLocal i := by
  obtain ⟨x, hx⟩ := Subgraph.hash_ok hp hash
  obtain ⟨h, h2⟩ := reach_inv hp hx hs hlt (by decide) hr
  obtain ⟨h', h2', _⟩ := Subgraph.updateLevels_inv hp h hash hx h2 hM hu
  have hm : m < sizeMax := by omega
  obtain ⟨h'', _⟩ := Subgraph.updateLevels_inv hp h' hash hx h2' hm ht
  obtain ⟨N, hN, _⟩ := (update_order hp h hash hx h2 hM hu).1 hmM
  have hsub := (update_order hp h' hash hx h2' hm ht).2 hmM
  have e : t.l2g = s.l2g := sublist_ext h'.nodup hsub (by rw [hN]; exact List.sublist_append_left _ _) fun v => by
    rw [h''.mem, h.mem]
  have hsz : s.sizeVertex = s.l2g.length := h.size
  have hsz' : t.sizeVertex = t.l2g.length := h''.size
  refine ⟨by rw [hsz, hsz', e], fun h0 => ?_, fun i => ?_⟩
  · refine graph_ext h.reach h''.reach h0 (by rw [h.size, h''.size, e]) fun a b => ?_
    by_cases hab : a < s.l2g.length ∧ b < s.l2g.length
    · have ea := List.getElem?_eq_getElem hab.1
      have eb := List.getElem?_eq_getElem hab.2
      rw [h.adj a b _ _ ea eb, h''.adj a b _ _ (by rw [e]; exact ea) (by rw [e]; exact eb)]
    · constructor
      · intro hA
        have := adj_lt h''.reach hA
        rw [h''.size, e] at this
        exact absurd this hab
      · intro hA
        have := adj_lt h.reach hA
        rw [h.size] at this
        exact absurd this hab
  · by_cases hi : i < s.l2g.length
    · have ei := List.getElem?_eq_getElem hi
      exact view_eq h h'' ei (by rw [e]; exact ei)
    · have n1 : ¬ i < s.sizeVertex := by rw [hsz]; exact hi
      have n2 : ¬ i < t.sizeVertex := by rw [hsz', e]; exact hi
      unfold Subgraph.localGlobal Subgraph.vertexLevel Subgraph.isLocal
      rw [decide_eq_false n1, decide_eq_false n2]
      simp [assert]

/-- The middle of a path of three vertices, with a level more, and without it again. -/
example : ∃ s s' t, SubReach id path3 [1] (sizeMax - 1) 0 s ∧ s.updateLevels id path3 1 none = .ok (s', none) ∧
    s'.updateLevels id path3 0 none = .ok (t, none) ∧ s'.localGlobal 0 = .ok 1 ∧ s'.localGlobal 1 = .ok 0 ∧
    s'.localGlobal 2 = .ok 2 ∧ t.graph = s.graph ∧ t.sizeVertex = 1 :=
  ⟨⟨⟨[], [0, 0]⟩, [1], [], 3 ^^^ 2 ^^^ 1 ^^^ 1⟩, ⟨⟨[1, 2, 0, 0], [0, 2, 3, 4]⟩, [1, 0, 2], [0, 1, 1], 3 ^^^ 2 ^^^ 1 ^^^ 1⟩,
    ⟨⟨[], [0, 0]⟩, [1], [], 3 ^^^ 2 ^^^ 1 ^^^ 1⟩, .make (by decide) (by decide +kernel), by decide +kernel,
    by decide +kernel, rfl, rfl, rfl, rfl, rfl⟩

end Disa.Props
