import Verif.Graph.Dist
import Mathlib.Data.List.Perm.Basic
import Mathlib.Data.List.Nodup

/-!
# Breadth first search, abstractly

The invariant of a breadth first search with a queue, for any order in which the new neighbours of a vertex are queued.
-/

namespace Disa
open Spec

/-- Invariant of a search from the sources `S`: `out` are the vertices taken from the queue, `q` is the queue, `vis` the
visited vertices.  Vertices at distance `e` are not expanded. -/
structure BInv (E : Nat → Nat → Prop) (S : Nat → Prop) (e : Nat) (vis : Nat → Prop) (out q : List Nat) : Prop where
  mem : ∀ v, vis v ↔ v ∈ out ∨ v ∈ q
  nodup : (out ++ q).Nodup
  dist : ∀ v, vis v → ∃ k, k ≤ e ∧ IsDist E S v k
  src : ∀ s, S s → vis s
  sorted : q.Pairwise fun u v => ∀ j k, IsDist E S u j → IsDist E S v k → j ≤ k
  before : ∀ u ∈ out, ∀ v ∈ q, ∀ j k, IsDist E S u j → IsDist E S v k → j ≤ k
  head : ∀ f rest, q = f :: rest → ∀ v ∈ q, ∀ j k, IsDist E S f j → IsDist E S v k → k ≤ j + 1
  closed : ∀ u ∈ out, ∀ k, IsDist E S u k → k ≠ e → ∀ w, E u w → vis w

namespace BInv
variable {E : Nat → Nat → Prop} {S : Nat → Prop} {e : Nat} {vis : Nat → Prop} {out q : List Nat}

/-- Everything not farther away than the front of the queue has been visited. -/
theorem visited_of_le {f : Nat} {rest : List Nat} (h : BInv E S e vis out (f :: rest)) {kf : Nat} (hf : IsDist E S f kf)
    {v k : Nat} (hv : IsDist E S v k) (hk : k ≤ kf) : vis v := by
  induction k generalizing v with
  | zero => exact h.src v (isDist_zero.mp hv)
  | succ k ih =>
    obtain ⟨p, hp, he⟩ := hv.pred
    have hpv := ih hp (by omega)
    obtain ⟨kf', hke, hf'⟩ := h.dist f ((h.mem f).mpr (.inr (by simp)))
    have := hf.unique hf'
    subst this
    rcases (h.mem p).mp hpv with hpo | hpq
    · exact h.closed p hpo k hp (by omega) v he
    · exfalso
      rcases List.mem_cons.mp hpq with rfl | hpr
      · have := hp.unique hf; omega
      · have := (List.pairwise_cons.mp h.sorted).1 p hpr kf k hf hp
        omega

/-- An unvisited neighbour of the front is one step farther away. -/
theorem dist_new {f : Nat} {rest : List Nat} (h : BInv E S e vis out (f :: rest)) {kf : Nat} (hf : IsDist E S f kf)
    {w : Nat} (he : E f w) (hw : ¬ vis w) : IsDist E S w (kf + 1) := by
  obtain ⟨j, hj, hd⟩ := hf.succ_le he
  have : ¬ j ≤ kf := fun hjk => hw (h.visited_of_le hf hd hjk)
  have : j = kf + 1 := by omega
  exact this ▸ hd

/-- Take the front of the queue and queue its unvisited neighbours. -/
theorem expand {f : Nat} {rest new : List Nat} (h : BInv E S e vis out (f :: rest)) {kf : Nat} (hf : IsDist E S f kf)
    (hke : kf ≠ e) (hn : new.Nodup) (hmem : ∀ w, w ∈ new ↔ E f w ∧ ¬ vis w) :
    BInv E S e (fun v => vis v ∨ v ∈ new) (out ++ [f]) (rest ++ new) := by
  have hvf : vis f := (h.mem f).mpr (.inr (by simp))
  have hle : kf ≤ e := by
    obtain ⟨kf', hke, hf'⟩ := h.dist f hvf
    rw [hf.unique hf']; exact hke
  have hnew : ∀ w ∈ new, IsDist E S w (kf + 1) := fun w hw => h.dist_new hf ((hmem w).mp hw).1 ((hmem w).mp hw).2
  have hs := List.pairwise_cons.mp h.sorted
  constructor
  · intro v
    have := h.mem v
    simp only [List.mem_cons] at this
    simp only [List.mem_append, List.mem_singleton, this]
    tauto
  · have hnd := h.nodup
    rw [List.append_assoc, ← List.append_assoc [f], List.singleton_append, ← List.append_assoc]
    rw [List.nodup_append]
    refine ⟨hnd, hn, ?_⟩
    intro a ha b hb hab
    subst hab
    have hva : vis a := by
      rw [h.mem]; simpa using ha
    exact ((hmem a).mp hb).2 hva
  · rintro v (hv | hv)
    · exact h.dist v hv
    · exact ⟨kf + 1, by omega, hnew v hv⟩
  · intro s hs; exact .inl (h.src s hs)
  · rw [List.pairwise_append]
    refine ⟨hs.2, ?_, ?_⟩
    · apply List.Pairwise.imp_of_mem (R := fun _ _ => True)
      · intro a b ha hb _ j k hj hk
        rw [hj.unique (hnew a ha), hk.unique (hnew b hb)]
      · exact List.pairwise_of_forall (fun _ _ => trivial)
    · intro a ha b hb j k hj hk
      rw [hk.unique (hnew b hb)]
      exact h.head f rest rfl a (by simp [ha]) kf j hf hj
  · intro u hu v hv j k hj hk
    rcases List.mem_append.mp hu with hu | hu
    · rcases List.mem_append.mp hv with hv | hv
      · exact h.before u hu v (by simp [hv]) j k hj hk
      · have := h.before u hu f (by simp) j kf hj hf
        rw [hk.unique (hnew v hv)]; omega
    · have : u = f := by simpa using hu
      subst this
      rw [hj.unique hf]
      rcases List.mem_append.mp hv with hv | hv
      · exact hs.1 v hv kf k hf hk
      · rw [hk.unique (hnew v hv)]; omega
  · intro f' rest' hq v hv j k hj hk
    have hv1 : k ≤ kf + 1 := by
      rcases List.mem_append.mp hv with hv | hv
      · exact h.head f rest rfl v (by simp [hv]) kf k hf hk
      · rw [hk.unique (hnew v hv)]
    have hj1 : kf ≤ j := by
      have hf' : f' ∈ rest ++ new := by rw [hq]; simp
      rcases List.mem_append.mp hf' with hf' | hf'
      · exact hs.1 f' hf' kf j hf hj
      · rw [hj.unique (hnew f' hf')]; omega
    omega
  · intro u hu k hk hke w hw
    rcases List.mem_append.mp hu with hu | hu
    · exact .inl (h.closed u hu k hk hke w hw)
    · have : u = f := by simpa using hu
      subst this
      by_cases hv : vis w
      · exact .inl hv
      · exact .inr ((hmem w).mpr ⟨hw, hv⟩)

/-- Take the front of the queue without expanding it. -/
theorem skip {f : Nat} {rest : List Nat} (h : BInv E S e vis out (f :: rest)) (hf : IsDist E S f e) :
    BInv E S e vis (out ++ [f]) rest := by
  have hs := List.pairwise_cons.mp h.sorted
  constructor
  · intro v
    have := h.mem v
    simp only [List.mem_cons] at this
    simp only [List.mem_append, List.mem_singleton, this]
    tauto
  · simpa using h.nodup
  · exact h.dist
  · exact h.src
  · exact hs.2
  · intro u hu v hv j k hj hk
    rcases List.mem_append.mp hu with hu | hu
    · exact h.before u hu v (by simp [hv]) j k hj hk
    · have : u = f := by simpa using hu
      subst this
      exact hs.1 v hv j k hj hk
  · intro f' rest' hq v hv j k hj hk
    have h1 := h.head f rest rfl v (by simp [hv]) e k hf hk
    have h2 := hs.1 f' (by rw [hq]; simp) e j hf hj
    omega
  · intro u hu k hk hke w hw
    rcases List.mem_append.mp hu with hu | hu
    · exact h.closed u hu k hk hke w hw
    · have : u = f := by simpa using hu
      subst this
      exact absurd (hk.unique hf) hke

/-- When the queue is empty exactly the vertices within distance `e` have been visited. -/
theorem done (h : BInv E S e vis out []) (v : Nat) : vis v ↔ ∃ k, k ≤ e ∧ IsDist E S v k := by
  constructor
  · exact h.dist v
  · rintro ⟨k, hk, hd⟩
    induction k generalizing v with
    | zero => exact h.src v (isDist_zero.mp hd)
    | succ k ih =>
      obtain ⟨p, hp, he⟩ := hd.pred
      have := ih p (by omega) hp
      rw [h.mem] at this
      simp only [List.not_mem_nil, or_false] at this
      exact h.closed p this k hp (by omega) v he

/-- The start of a search from a single vertex. -/
theorem start (s e : Nat) : BInv E (· = s) e (· = s) [] [s] := by
  have hd : IsDist E (· = s) s 0 := isDist_zero.mpr rfl
  constructor
  · intro v; simp
  · simp
  · rintro v rfl; exact ⟨0, by omega, hd⟩
  · intro t ht; exact ht
  · simp
  · simp
  · intro f rest hq v hv j k hj hk
    have : v = s := by simpa using hv
    subst this
    rw [hk.unique hd]; omega
  · simp

/-- Vertices leave the queue in order of distance. -/
theorem out_sorted_step {f : Nat} {rest : List Nat} (h : BInv E S e vis out (f :: rest))
    (ho : out.Pairwise fun u v => ∀ j k, IsDist E S u j → IsDist E S v k → j ≤ k) :
    (out ++ [f]).Pairwise fun u v => ∀ j k, IsDist E S u j → IsDist E S v k → j ≤ k := by
  rw [List.pairwise_append]
  exact ⟨ho, by simp, fun a ha b hb => h.before a ha b (by simp at hb; simp [hb])⟩

end BInv
end Disa
