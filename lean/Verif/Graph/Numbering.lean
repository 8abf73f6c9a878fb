import Verif.Spec.Order
import Verif.Graph.Levels
import Verif.Graph.Reorder

/-! # Search orderings: breadth first and Cuthill McKee -/

namespace Disa
open Spec

/-- Entry `i` is the first one of `out` joined to `v`. -/
def Disc (E : Nat → Nat → Prop) (out : List Nat) (v i : Nat) : Prop :=
  (∃ u, out[i]? = some u ∧ E u v) ∧ ∀ j, j < i → ∀ u, out[j]? = some u → ¬ E u v

theorem Disc.unique {E out v i j} (h : Disc E out v i) (h' : Disc E out v j) : i = j := by
  rcases Nat.lt_trichotomy i j with hl | hl | hl
  · obtain ⟨u, h1, h2⟩ := h.1; exact absurd h2 (h'.2 i hl u h1)
  · exact hl
  · obtain ⟨u, h1, h2⟩ := h'.1; exact absurd h2 (h.2 j hl u h1)

theorem Disc.append {E out v i} (h : Disc E out v i) (l : List Nat) : Disc E (out ++ l) v i := by
  obtain ⟨⟨u, h1, h2⟩, h3⟩ := h
  have hi := (List.getElem?_eq_some_iff.mp h1).1
  refine ⟨⟨u, by rw [List.getElem?_append_left hi]; exact h1, h2⟩, ?_⟩
  intro j hj w hw
  rw [List.getElem?_append_left (by omega)] at hw
  exact h3 j hj w hw

namespace Graph

/-- Invariant of the search loops.  `R` is the order in which the new neighbours of one vertex are queued. -/
structure SInv (R : Nat → Nat → Prop) (L : List (List Nat)) (root : Nat) (out : List Nat) (s : Search) : Prop where
  bfs : BInv (rowRel L) (· = root) sizeMax (fun v => s.visited[v]? = some true) out s.queue
  vlen : s.visited.length = L.length
  plen : s.perm.length = L.length
  next : s.next = out.length
  perm : ∀ (i v : Nat), out[i]? = some v → s.perm[v]? = some i
  osorted : out.Pairwise fun u v => ∀ j k, IsDist (rowRel L) (· = root) u j → IsDist (rowRel L) (· = root) v k → j ≤ k
  disc : ∀ v, v ∈ out ++ s.queue → v ≠ root → ∃ i, i < out.length ∧ Disc (rowRel L) out v i
  tree : (out ++ s.queue).Pairwise fun u v => u ≠ root → v ≠ root → ∀ i j, Disc (rowRel L) out u i →
    Disc (rowRel L) out v j → i ≤ j ∧ (i = j → R u v)
  first : (out ++ s.queue)[0]? = some root

/-- One step, for any order of the new neighbours. -/
theorem SInv.step {d : Bool} {R : Nat → Nat → Prop} {L : List (List Nat)} (hg : Good d L) (hn : L.length < sizeMax)
    {root : Nat} (hroot : root < L.length) {out : List Nat}
    {s : Search} {f : Nat} {rest new : List Nat} (h : SInv R L root out s) (hq : s.queue = f :: rest)
    (hp : new.Perm (fresh (fun b => !b) s.visited (row L f))) (hR : new.Pairwise R) :
    SInv R L root (out ++ [f]) ⟨rest ++ new, mark s.visited (fresh (fun b => !b) s.visited (row L f)) true,
      s.perm.set f s.next, s.next + 1⟩ ∧
      (rest ++ new).length + unsetCount (fun b => !b) (mark s.visited (fresh (fun b => !b) s.visited (row L f)) true)
        < s.queue.length + unsetCount (fun b => !b) s.visited := by
  obtain ⟨hb, hv, hpl, hnx, hpm, hos, hdc, htr, hfi⟩ := h
  rw [hq] at hb hdc htr hfi ⊢
  have hvf : s.visited[f]? = some true := (hb.mem f).mpr (.inr (by simp))
  have hflt : f < L.length := by
    have := (List.getElem?_eq_some_iff.mp hvf).1; omega
  obtain ⟨kf, _, hd⟩ := hb.dist f hvf
  have hkn : kf < L.length := hd.lt_card (by rintro x rfl; exact hroot) (fun u v huv => hg.range u v huv)
  have hmemF : ∀ w, w ∈ fresh (fun b => !b) s.visited (row L f) ↔ rowRel L f w ∧ ¬ s.visited[w]? = some true := by
    intro w
    rw [mem_fresh]
    unfold rowRel
    constructor
    · rintro ⟨h1, h2⟩
      refine ⟨h1, ?_⟩
      intro hw
      rw [hw] at h2; simp at h2
    · rintro ⟨h1, h2⟩
      refine ⟨h1, ?_⟩
      have hlt : w < s.visited.length := by rw [hv]; exact hg.range f w h1
      rw [List.getElem?_eq_getElem hlt] at h2 ⊢
      cases hx : s.visited[w]
      · simp
      · rw [hx] at h2; simp at h2
  have hFnd : (fresh (fun b => !b) s.visited (row L f)).Nodup := (hg.nodup f).filter _
  have hFcount := unsetCount_mark (isNew := fun b => !b) (b := true) rfl (m := s.visited) hFnd
    (fun v hv => (mem_fresh.mp hv).2)
  have hplen := hp.length_eq
  generalize fresh (fun b => !b) s.visited (row L f) = F at *
  have hmem : ∀ w, w ∈ new ↔ rowRel L f w ∧ ¬ s.visited[w]? = some true := by
    intro w; rw [hp.mem_iff]; exact hmemF w
  have hnd : new.Nodup := hp.nodup_iff.mpr hFnd
  have hb' := hb.expand hd (by omega) hnd hmem
  have hvis : (fun (v : Nat) => s.visited[v]? = some true ∨ v ∈ new) =
      (fun (v : Nat) => (mark s.visited F true)[v]? = some true) := by
    funext v
    rw [mark_getElem?]
    apply propext
    rw [hp.mem_iff]
    by_cases hvF : v ∈ F
    · have hlt : v < s.visited.length := by rw [hv]; exact hg.range f v ((hmemF v).mp hvF).1
      simp [hvF, hlt]
    · simp [hvF]
  rw [hvis] at hb'
  have hidx : (out ++ [f])[out.length]? = some f := by simp
  -- new vertices are discovered by `f`
  have hnew : ∀ w ∈ new, Disc (rowRel L) (out ++ [f]) w out.length := by
    intro w hw
    obtain ⟨h1, h2⟩ := (hmem w).mp hw
    refine ⟨⟨f, hidx, h1⟩, ?_⟩
    intro j hj u hu huw
    rw [List.getElem?_append_left hj] at hu
    have huo : u ∈ out := List.mem_of_getElem? hu
    obtain ⟨ku, _, hku⟩ := hb.dist u ((hb.mem u).mpr (.inl huo))
    have : ku < L.length := hku.lt_card (by rintro x rfl; exact hroot) (fun u v huv => hg.range u v huv)
    exact h2 (hb.closed u huo ku hku (by omega) w huw)
  have hold : ∀ v, v ∈ out ++ f :: rest → v ≠ root → ∃ i, i < out.length ∧ Disc (rowRel L) out v i := hdc
  have hassoc : out ++ [f] ++ (rest ++ new) = (out ++ f :: rest) ++ new := by simp
  refine ⟨⟨hb', by simpa using hv, by simpa using hpl, by simp [hnx], ?_, ?_, ?_, ?_, ?_⟩, ?_⟩
  · intro i v hiv
    simp only
    rw [List.getElem?_set]
    by_cases hil : i < out.length
    · rw [List.getElem?_append_left hil] at hiv
      have hne : f ≠ v := by
        rintro rfl
        have hnd := hb.nodup
        rw [List.nodup_append] at hnd
        exact hnd.2.2 f (List.mem_of_getElem? hiv) f (by simp) rfl
      rw [if_neg hne]
      exact hpm i v hiv
    · rw [List.getElem?_append_right (by omega)] at hiv
      have hi0 : i - out.length = 0 := by
        have := (List.getElem?_eq_some_iff.mp hiv).1
        simp at this; omega
      rw [hi0] at hiv
      simp at hiv
      subst hiv
      have : i = out.length := by omega
      simp [hpl, hflt, hnx, this]
  · exact hb.out_sorted_step hos
  · intro v hvm hvr
    simp only at hvm
    rw [hassoc] at hvm
    rcases List.mem_append.mp hvm with hvm | hvm
    · obtain ⟨i, hi, hd⟩ := hold v hvm hvr
      exact ⟨i, by simp; omega, hd.append _⟩
    · exact ⟨out.length, by simp, hnew v hvm⟩
  · simp only
    rw [hassoc, List.pairwise_append]
    refine ⟨?_, ?_, ?_⟩
    · apply List.Pairwise.imp_of_mem _ htr
      intro a b ha hb hab har hbr i j hi hj
      obtain ⟨i', hi', hdi⟩ := hold a ha har
      obtain ⟨j', hj', hdj⟩ := hold b hb hbr
      have e1 := (hdi.append [f]).unique hi
      have e2 := (hdj.append [f]).unique hj
      subst e1; subst e2
      exact hab har hbr _ _ hdi hdj
    · apply List.Pairwise.imp_of_mem _ hR
      intro a b ha hb hab _ _ i j hi hj
      rw [← (hnew a ha).unique hi, ← (hnew b hb).unique hj]
      exact ⟨Nat.le_refl _, fun _ => hab⟩
    · intro a ha b hb har _ i j hi hj
      obtain ⟨i', hi', hdi⟩ := hold a ha har
      rw [← (hdi.append [f]).unique hi, ← (hnew b hb).unique hj]
      exact ⟨by omega, fun h => by omega⟩
  · simp only
    rw [hassoc, List.getElem?_append_left (by simp)]
    exact hfi
  · simp only [List.length_append, List.length_cons]
    omega

theorem SInv.start {R : Nat → Nat → Prop} {L : List (List Nat)} {root : Nat} (hroot : root < L.length) :
    SInv R L root [] ⟨[root], (List.replicate L.length false).set root true, List.replicate L.length sizeMax, 0⟩ := by
  have hvis : (fun (v : Nat) => ((List.replicate L.length false).set root true)[v]? = some true) = (· = root) := by
    funext v
    apply propext
    rw [List.getElem?_set, List.getElem?_replicate]
    by_cases h : root = v
    · subst h; simp [hroot]
    · simp [h, Ne.symm h]
  refine ⟨?_, by simp, by simp, rfl, by simp, by simp, ?_, by simp, by simp⟩
  · simp only [hvis]; exact BInv.start root _
  · intro v hv hvr
    simp at hv
    exact absurd hv hvr

/-- What a finished search says about the permutation. -/
structure Numbering (R : Nat → Nat → Prop) (L : List (List Nat)) (root : Nat) (p : List Nat) : Prop where
  perm : IsPerm p L.length
  head : p[root]? = some 0
  level : ∀ (u v a b j k : Nat), p[u]? = some a → p[v]? = some b → a < b → IsDist (rowRel L) (· = root) u j →
    IsDist (rowRel L) (· = root) v k → j ≤ k
  tree : ∀ (u v a b : Nat), p[u]? = some a → p[v]? = some b → a < b → u ≠ root → ∀ i j,
    ((∃ w, rowRel L w u ∧ p[w]? = some i) ∧ ∀ (w l : Nat), rowRel L w u → p[w]? = some l → i ≤ l) →
    ((∃ w, rowRel L w v ∧ p[w]? = some j) ∧ ∀ (w l : Nat), rowRel L w v → p[w]? = some l → j ≤ l) →
    i ≤ j ∧ (i = j → R u v)

theorem isPerm_of_inv {p out : List Nat} {n : Nat} (hpl : p.length = n) (hol : out.length = n) (hnd : out.Nodup)
    (hlt : ∀ v ∈ out, v < n) (h : ∀ (i v : Nat), out[i]? = some v → p[v]? = some i) :
    IsPerm p n ∧ out.Perm (List.range n) ∧ ∀ (v i : Nat), p[v]? = some i → out[i]? = some v := by
  have hop : out.Perm (List.range n) := by
    have : out.Subperm (List.range n) := List.subperm_of_subset hnd (fun v hv => List.mem_range.mpr (hlt v hv))
    exact this.perm_of_length_le (by simp; omega)
  have hinv : ∀ (v i : Nat), p[v]? = some i → out[i]? = some v := by
    intro v i hv
    have hvn : v < n := by
      have := (List.getElem?_eq_some_iff.mp hv).1; omega
    have hvo : v ∈ out := hop.mem_iff.mpr (List.mem_range.mpr hvn)
    obtain ⟨j, hj, hjv⟩ := List.mem_iff_getElem.mp hvo
    have := h j v (by rw [List.getElem?_eq_getElem hj, hjv])
    rw [hv] at this
    cases this
    rw [List.getElem?_eq_getElem hj, hjv]
  refine ⟨?_, hop, hinv⟩
  have hpn : p.Nodup := by
    rw [List.nodup_iff_getElem?_ne_getElem?]
    intro i j hij hj heq
    have hi : i < p.length := by omega
    rw [List.getElem?_eq_getElem hi, List.getElem?_eq_getElem hj] at heq
    have h1 := hinv i p[i] (List.getElem?_eq_getElem hi)
    have h2 := hinv j p[j] (List.getElem?_eq_getElem hj)
    rw [Option.some.inj heq, h2] at h1
    have := Option.some.inj h1
    omega
  have : p.Subperm (List.range n) := by
    apply List.subperm_of_subset hpn
    intro x hx
    obtain ⟨j, hj, hjx⟩ := List.mem_iff_getElem.mp hx
    have := hinv j x (by rw [List.getElem?_eq_getElem hj, hjx])
    have := (List.getElem?_eq_some_iff.mp this).1
    exact List.mem_range.mpr (by omega)
  exact this.perm_of_length_le (by simp; omega)

theorem SInv.finish {d : Bool} {R : Nat → Nat → Prop} {L : List (List Nat)} (hg : Good d L) (hn : L.length < sizeMax)
    {root : Nat} (hroot : root < L.length) {out : List Nat} {s : Search} (h : SInv R L root out s) (hq : s.queue = []) :
    ((∀ v, v < L.length → Reached (rowRel L) (· = root) v) ↔ s.next = L.length) ∧
    (s.next = L.length → Numbering R L root s.perm) := by
  obtain ⟨hb, hv, hpl, hnx, hpm, hos, hdc, htr, hfi⟩ := h
  rw [hq] at hb hdc htr hfi
  simp only [List.append_nil] at hdc htr hfi
  have hnd : out.Nodup := by simpa using hb.nodup
  have hreach : ∀ v, v ∈ out ↔ Reached (rowRel L) (· = root) v := by
    intro v
    have h1 := hb.mem v
    simp only [List.not_mem_nil, or_false] at h1
    rw [← h1, hb.done, reached_iff]
    constructor
    · rintro ⟨k, _, hk⟩; exact ⟨k, hk⟩
    · rintro ⟨k, hk⟩
      have : k < L.length := hk.lt_card (by rintro x rfl; exact hroot) (fun u v huv => hg.range u v huv)
      exact ⟨k, by omega, hk⟩
  have hlt : ∀ v ∈ out, v < L.length := by
    intro v hvo
    have := (hb.mem v).mpr (.inl hvo)
    have := (List.getElem?_eq_some_iff.mp this).1
    omega
  have hsub : out.Subperm (List.range L.length) := List.subperm_of_subset hnd (fun v hv => List.mem_range.mpr (hlt v hv))
  constructor
  · rw [hnx]
    constructor
    · intro hall
      have h2 : (List.range L.length).Subperm out :=
        List.subperm_of_subset List.nodup_range (fun v hv => (hreach v).mpr (hall v (List.mem_range.mp hv)))
      have := hsub.length_le
      have := h2.length_le
      simp at *
      try omega
    · intro hl v hv
      have : out.Perm (List.range L.length) := hsub.perm_of_length_le (by simp; omega)
      exact (hreach v).mp (this.mem_iff.mpr (List.mem_range.mpr hv))
  · intro hnl
    obtain ⟨hP, hop, hinv⟩ := isPerm_of_inv hpl (by omega) hnd hlt hpm
    refine ⟨hP, hpm 0 root hfi, ?_, ?_⟩
    · intro u v a b j k hu hv hab hj hk
      have h1 := hinv u a hu
      have h2 := hinv v b hv
      obtain ⟨ha, hau⟩ := List.getElem?_eq_some_iff.mp h1
      obtain ⟨hb', hbv⟩ := List.getElem?_eq_some_iff.mp h2
      have := List.pairwise_iff_getElem.mp hos a b ha hb' hab
      rw [hau, hbv] at this
      exact this j k hj hk
    · intro u v a b hu hv hab hur i j hi hj
      have h1 := hinv u a hu
      have h2 := hinv v b hv
      obtain ⟨ha, hau⟩ := List.getElem?_eq_some_iff.mp h1
      obtain ⟨hb', hbv⟩ := List.getElem?_eq_some_iff.mp h2
      have hvr : v ≠ root := by
        rintro rfl
        have h0 := hpm 0 v hfi
        rw [hv] at h0
        have := Option.some.inj h0
        omega
      have conv : ∀ x l, ((∃ w, rowRel L w x ∧ s.perm[w]? = some l) ∧
          ∀ (w m : Nat), rowRel L w x → s.perm[w]? = some m → l ≤ m) → Disc (rowRel L) out x l := by
        rintro x l ⟨⟨w, hw1, hw2⟩, hmin⟩
        refine ⟨⟨w, hinv w l hw2, hw1⟩, ?_⟩
        intro m hm y hy hyx
        have := hmin y m hyx (hpm m y hy)
        omega
      have := List.pairwise_iff_getElem.mp htr a b ha hb' hab
      rw [hau, hbv] at this
      exact this hur hvr i j (conv u i hi) (conv v j hj)

/-! ### Breadth first -/

theorem bfs_fold {d : Bool} {L : List (List Nat)} (hg : Good d L) {f : Nat} {visited : List Bool}
    (hv : visited.length = L.length) (q : List Nat) :
    (row L f).foldlM (discover (fun b => !b) (fun _ => .ok true)) (q, visited) =
      .ok (q ++ fresh (fun b => !b) visited (row L f), mark visited (fresh (fun b => !b) visited (row L f)) true) :=
  discover_fold rfl (hg.nodup f) (fun v hv' => by rw [hv]; exact hg.range f v hv') (fun _ _ _ => rfl)

theorem SInv.front_lt {R L root out s} (h : SInv R L root out s) {f rest} (hq : s.queue = f :: rest) : f < L.length := by
  have := (h.bfs.mem f).mpr (.inr (by rw [hq]; simp))
  have := (List.getElem?_eq_some_iff.mp this).1
  rw [h.vlen] at this; exact this

theorem bfsStep_ok {d : Bool} {g : Graph} {L : List (List Nat)} (hr : g.Rep L) (hg : Good d L) (hn : L.length < sizeMax)
    {root : Nat} (hroot : root < L.length) {s : Search} (h : ∃ out, SInv (· < ·) L root out s)
    (hc : (!s.queue.isEmpty) = true) :
    ∃ s', g.bfsStep s = .ok s' ∧ (∃ out, SInv (· < ·) L root out s') ∧
      s'.queue.length + unsetCount (fun b => !b) s'.visited < s.queue.length + unsetCount (fun b => !b) s.visited := by
  obtain ⟨out, h⟩ := h
  cases hq : s.queue with
  | nil => rw [hq] at hc; simp at hc
  | cons f rest =>
    have hf := h.front_lt hq
    have hs := h.step hg hn hroot hq (List.Perm.refl _) ((hg.sorted f).filter _)
    refine ⟨_, ?_, ⟨_, hs.1⟩, ?_⟩
    · unfold bfsStep
      simp only [hq, wr_ok (show f < s.perm.length by rw [h.plen]; exact hf), hr.nbrs hf, Out.ok_bind,
        bfs_fold hg h.vlen, Out.pure_eq]
    · have := hs.2
      rw [hq] at this
      exact this

theorem breadthFirst_ok {d : Bool} {g : Graph} {L : List (List Nat)} (hr : g.Rep L) (hg : Good d L)
    (hn : L.length < sizeMax) {root : Nat} (hroot : root < L.length) :
    ((∀ v, v < L.length → Reached (rowRel L) (· = root) v) →
      ∃ p, g.breadthFirst root = .ok p ∧ Numbering (· < ·) L root p) ∧
    ((∃ v, v < L.length ∧ ¬ Reached (rowRel L) (· = root) v) → g.breadthFirst root = .exit 1) := by
  have hI : SInv (· < ·) L root [] ⟨[root], (List.replicate L.length false).set root true, List.replicate L.length sizeMax, 0⟩ :=
    SInv.start hroot
  obtain ⟨s, h1, hex, h3⟩ := whileFuel_inv (cond := fun s : Search => !s.queue.isEmpty)
    (body := g.bfsStep) (fun s => ∃ out, SInv (· < ·) L root out s)
    (fun s => s.queue.length + unsetCount (fun b => !b) s.visited) (fuel := 1 + L.length) ⟨_, hI⟩
    (by
      have := unsetCount_le (fun b => !b) ((List.replicate L.length false).set root true)
      simp at this ⊢; omega)
    (fun s hs hc => bfsStep_ok hr hg hn hroot hs hc)
  obtain ⟨out, h2⟩ := hex
  have hq : s.queue = [] := by simpa using h3
  obtain ⟨f1, f2⟩ := h2.finish hg hn hroot hq
  have hrun : g.breadthFirst root = (assert (s.next == L.length) >>= fun _ => .ok s.perm) := by
    unfold breadthFirst
    have h4 : wr (List.replicate L.length false) root true = .ok ((List.replicate L.length false).set root true) :=
      wr_ok (by simpa using hroot)
    rw [hr.empty, decide_eq_false (by omega), hr.sizeVertex]
    simp only [Bool.false_eq_true, if_false, hroot, decide_true, assert_true, Out.ok_bind, h4, h1, Out.pure_eq]
  rw [hrun]
  constructor
  · intro hall
    have := f1.mp hall
    exact ⟨s.perm, by simp [this], f2 this⟩
  · rintro ⟨v, hv, hnr⟩
    have : ¬ s.next = L.length := fun h => hnr (f1.mpr h v hv)
    have hb : (s.next == L.length) = false := by simpa using this
    rw [hb]; rfl

/-! ### Cuthill McKee -/

theorem cmStep_ok {d : Bool} {g : Graph} {L : List (List Nat)} (hr : g.Rep L) (hg : Good d L) (hn : L.length < sizeMax)
    {sort : List (Nat × Nat) → List (Nat × Nat)} (hsort : DegreeSort sort)
    {root : Nat} (hroot : root < L.length) {s : Search}
    (h : ∃ out, SInv (fun u v => (row L u).length ≤ (row L v).length) L root out s)
    (hc : (!s.queue.isEmpty) = true) :
    ∃ s', g.cmStep sort s = .ok s' ∧ (∃ out, SInv (fun u v => (row L u).length ≤ (row L v).length) L root out s') ∧
      s'.queue.length + unsetCount (fun b => !b) s'.visited < s.queue.length + unsetCount (fun b => !b) s.visited := by
  obtain ⟨out, h⟩ := h
  cases hq : s.queue with
  | nil => rw [hq] at hc; simp at hc
  | cons f rest =>
    have hf := h.front_lt hq
    have hFlt : ∀ v ∈ fresh (fun b => !b) s.visited (row L f), v < L.length :=
      fun v hv => hg.range f v (mem_fresh.mp hv).1
    generalize hF : fresh (fun b => !b) s.visited (row L f) = F at hFlt
    have hmap : mapOut (fun v => do let k ← g.degree v; pure (v, k)) F = .ok (F.map fun v => (v, (row L v).length)) := by
      apply mapOut_ok
      intro v hv
      simp [hr.degree (hFlt v hv)]
    obtain ⟨hp, hs⟩ := hsort (F.map fun v => (v, (row L v).length))
    have hperm : ((sort (F.map fun v => (v, (row L v).length))).map (·.1)).Perm F := by
      have := hp.map (·.1)
      simpa [Function.comp_def] using this
    have hpair : ((sort (F.map fun v => (v, (row L v).length))).map (·.1)).Pairwise
        fun u v => (row L u).length ≤ (row L v).length := by
      rw [List.pairwise_map]
      apply List.Pairwise.imp_of_mem _ hs
      intro a b ha hb hab
      obtain ⟨u, _, rfl⟩ := List.mem_map.mp (hp.mem_iff.mp ha)
      obtain ⟨v, _, rfl⟩ := List.mem_map.mp (hp.mem_iff.mp hb)
      exact hab
    have hstep := h.step hg hn hroot hq (by rw [hF]; exact hperm) hpair
    refine ⟨_, ?_, ⟨_, hstep.1⟩, ?_⟩
    · unfold cmStep
      simp only [hq, wr_ok (show f < s.perm.length by rw [h.plen]; exact hf), hr.nbrs hf, Out.ok_bind,
        bfs_fold hg h.vlen, Out.pure_eq, List.nil_append, hF]
      simp only [Out.pure_eq] at hmap
      simp only [hmap, Out.ok_bind]
    · have := hstep.2
      rw [hq] at this
      exact this

/-- The search after the root has been chosen. -/
theorem cuthillMckee_from {d : Bool} {g : Graph} {L : List (List Nat)} (hr : g.Rep L) (hg : Good d L)
    (hn : L.length < sizeMax) {sort : List (Nat × Nat) → List (Nat × Nat)} (hsort : DegreeSort sort)
    {start root : Nat} (hroot : root < L.length) (hstart : start < L.length ∨ start = sizeMax)
    (hrt : g.cmRoot start = .ok root) :
    ((∀ v, v < L.length → Reached (rowRel L) (· = root) v) →
      ∃ p, g.cuthillMckee sort start = .ok p ∧ Numbering (fun u v => (row L u).length ≤ (row L v).length) L root p) ∧
    ((∃ v, v < L.length ∧ ¬ Reached (rowRel L) (· = root) v) → g.cuthillMckee sort start = .exit 1) := by
  have hI : SInv (fun u v => (row L u).length ≤ (row L v).length) L root []
    ⟨[root], (List.replicate L.length false).set root true, List.replicate L.length sizeMax, 0⟩ := SInv.start hroot
  obtain ⟨s, h1, hex, h3⟩ := whileFuel_inv (cond := fun s : Search => !s.queue.isEmpty)
    (body := g.cmStep sort) (fun s => ∃ out, SInv (fun u v => (row L u).length ≤ (row L v).length) L root out s)
    (fun s => s.queue.length + unsetCount (fun b => !b) s.visited) (fuel := 1 + L.length) ⟨_, hI⟩
    (by
      have := unsetCount_le (fun b => !b) ((List.replicate L.length false).set root true)
      simp at this ⊢; omega)
    (fun s hs hc => cmStep_ok hr hg hn hsort hroot hs hc)
  obtain ⟨out, h2⟩ := hex
  have hq : s.queue = [] := by simpa using h3
  obtain ⟨f1, f2⟩ := h2.finish hg hn hroot hq
  have hrun : g.cuthillMckee sort start = (assert (s.next == L.length) >>= fun _ => .ok s.perm) := by
    unfold cuthillMckee
    have h4 : wr (List.replicate L.length false) root true = .ok ((List.replicate L.length false).set root true) :=
      wr_ok (by simpa using hroot)
    have h5 : (decide (start < L.length) || start == sizeMax) = true := by
      rcases hstart with h | h <;> simp [h]
    rw [hr.empty, decide_eq_false (by omega), hr.sizeVertex]
    simp only [Bool.false_eq_true, if_false, h5, assert_true, Out.ok_bind, hrt, h4, h1, Out.pure_eq]
  rw [hrun]
  constructor
  · intro hall
    have := f1.mp hall
    exact ⟨s.perm, by simp [this], f2 this⟩
  · rintro ⟨v, hv, hnr⟩
    have : ¬ s.next = L.length := fun h => hnr (f1.mpr h v hv)
    have hb : (s.next == L.length) = false := by simpa using this
    rw [hb]; rfl

theorem cmRoot_given {g : Graph} {L : List (List Nat)} (hn : L.length < sizeMax) {start : Nat} (h : start < L.length) :
    g.cmRoot start = .ok start := by
  unfold cmRoot
  rw [if_neg]
  simp; omega

/-- The default root: a vertex of minimum degree, provided no degree is zero. -/
theorem cmRoot_default {d : Bool} {g : Graph} {L : List (List Nat)} (hr : g.Rep L) (hg : Good d L)
    (hn : L.length < sizeMax) (hne : L ≠ []) (hpos : ∀ v, v < L.length → row L v ≠ []) :
    ∃ r, g.cmRoot sizeMax = .ok r ∧ r < L.length ∧ (∀ v, v < L.length → (row L r).length ≤ (row L v).length) ∧
      ∀ v, v < r → (row L r).length < (row L v).length := by
  have hn0 := List.length_pos_iff.mpr hne
  obtain ⟨⟨r, k⟩, h1, h2⟩ := loop_inv (body := g.cmStart) (fun i s => (i = 0 → s = (sizeMax, sizeMax)) ∧
      (0 < i → s.1 < L.length ∧ s.2 = (row L s.1).length ∧ (∀ v, v < i → s.2 ≤ (row L v).length) ∧
        s.1 < i ∧ ∀ v, v < s.1 → s.2 < (row L v).length))
    (n := L.length) (s := (sizeMax, sizeMax)) ⟨fun _ => rfl, fun h => by omega⟩
    (by
      rintro i ⟨r, k⟩ hi ⟨h0, hp⟩
      have hlen := row_length_le hg i
      have hne0 : (row L i).length ≠ 0 := by
        intro h; exact hpos i hi (List.eq_nil_of_length_eq_zero h)
      have hb : ((row L i).length != 0) = true := by simpa using hne0
      unfold cmStart
      simp only [hr.degree hi, Out.ok_bind]
      by_cases hk : k > (row L i).length
      · rw [if_pos hk]
        refine ⟨(i, (row L i).length), by rw [hb]; rfl, by intro h; omega, fun _ => ⟨hi, rfl, ?_, by simp, ?_⟩⟩
        · intro v hv
          by_cases hvi : v = i
          · subst hvi; exact Nat.le_refl _
          · have := (hp (by omega)).2.2.1 v (by omega)
            simp only at this ⊢; omega
        · intro v hv
          have := (hp (by simp only at hv; omega)).2.2.1 v hv
          simp only at this ⊢; omega
      · rw [if_neg hk]
        refine ⟨(r, k), rfl, by intro h; omega, fun _ => ?_⟩
        have hi0 : 0 < i := by
          by_contra hc
          have := h0 (by omega)
          cases this
          omega
        obtain ⟨q1, q2, q3, q4, q5⟩ := hp hi0
        refine ⟨q1, q2, ?_, by simp only at q4 ⊢; omega, q5⟩
        intro v hv
        by_cases hvi : v = i
        · subst hvi; simp only; omega
        · exact q3 v (by omega))
  obtain ⟨q1, q2, q3, _, q5⟩ := h2.2 hn0
  simp only at q1 q2 q3 q5
  refine ⟨r, ?_, q1, fun v hv => by rw [← q2]; exact q3 v hv, fun v hv => by rw [← q2]; exact q5 v hv⟩
  unfold cmRoot
  have hne' : (r != sizeMax) = true := by
    have : r ≠ sizeMax := by omega
    simpa using this
  simp [hr.sizeVertex, h1, hne']

theorem cmRoot_zero_degree {d : Bool} {g : Graph} {L : List (List Nat)} (hr : g.Rep L) (hg : Good d L)
    (hn : L.length < sizeMax) {v : Nat} (hv : v < L.length) (h0 : row L v = []) : g.cmRoot sizeMax = .exit 1 := by
  unfold cmRoot
  have hstop : loop L.length g.cmStart (sizeMax, sizeMax) = .exit 1 := by
    apply loop_stop (.exit 1) (fun _ => rfl) (fun s : Nat × Nat => 0 < s.2) (j := v)
    · exact Nat.lt_of_lt_of_le (Nat.lt_of_le_of_lt (Nat.zero_le _) hn) (Nat.le_refl _)
    · intro i s hi hs
      unfold cmStart
      simp only [hr.degree hi, Out.ok_bind]
      by_cases hk : s.2 > (row L i).length
      · rw [if_pos hk]
        by_cases h0 : (row L i).length = 0
        · left; rw [h0]; rfl
        · right
          have hb : ((row L i).length != 0) = true := by simpa using h0
          exact ⟨_, by rw [hb]; rfl, by simp only; omega⟩
      · rw [if_neg hk]; exact .inr ⟨s, rfl, hs⟩
    · exact hv
    · intro s hs
      unfold cmStart
      simp only [hr.degree hv, Out.ok_bind, h0, List.length_nil]
      rw [if_pos hs]
      rfl
  simp [hr.sizeVertex, hstop]

end Graph
end Disa
