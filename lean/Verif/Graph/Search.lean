import Verif.Graph.Util
import Verif.Graph.Order
import Verif.Graph.Bfs
import Verif.Graph.Reach

/-! # The searches of the code follow the abstract search -/

namespace Disa
open Spec

/-- Write the mark `b` at all positions in `l`. -/
def mark (m : List β) (l : List Nat) (b : β) : List β := l.foldl (fun m v => m.set v b) m

@[simp] theorem mark_length (m : List β) (l : List Nat) (b : β) : (mark m l b).length = m.length := by
  unfold mark
  induction l generalizing m with
  | nil => rfl
  | cons a l ih => simp [ih]

theorem mark_getElem? (m : List β) (l : List Nat) (b : β) (v : Nat) :
    (mark m l b)[v]? = if v ∈ l ∧ v < m.length then some b else m[v]? := by
  unfold mark
  induction l generalizing m with
  | nil => simp
  | cons a l ih =>
    rw [List.foldl_cons, ih]
    simp only [List.length_set, List.mem_cons, List.getElem?_set]
    by_cases h1 : v < m.length
    · by_cases h2 : v ∈ l
      · simp [h1, h2]
      · by_cases h3 : v = a
        · subst h3; simp [h1]
        · simp [h2, h3, Ne.symm h3]
    · by_cases h3 : a = v
      · subst h3; simp [h1]
      · simp [h1, h3]

/-- New entries of `r` with respect to the marks `m`. -/
def fresh (isNew : β → Bool) (m : List β) (r : List Nat) : List Nat := r.filter fun v => (m[v]?).any isNew

theorem discover_fold {isNew : β → Bool} {val : List β → Out β} {b : β} (hb : isNew b = false) {r : List Nat}
    (hnd : r.Nodup) {q : List Nat} {m : List β} (hlt : ∀ v ∈ r, v < m.length)
    (hval : ∀ m' : List β, m'.length = m.length → (∀ (v : Nat) (x : β), m[v]? = some x → isNew x = false → m'[v]? = some x) →
      val m' = .ok b) :
    r.foldlM (discover isNew val) (q, m) = .ok (q ++ fresh isNew m r, mark m (fresh isNew m r) b) := by
  induction r generalizing q m with
  | nil => simp [fresh, mark, List.foldlM]
  | cons a r ih =>
    have ha : a < m.length := hlt a (by simp)
    have hnd' := List.nodup_cons.mp hnd
    rw [List.foldlM_cons]
    by_cases hn : isNew m[a] = true
    · have h1 : discover isNew val (q, m) a = .ok (q ++ [a], m.set a b) := by
        unfold discover
        simp only [rd_ok ha, Out.ok_bind, hn, if_true]
        rw [hval m rfl (fun v x h _ => h)]
        simp [wr_ok ha]
      rw [h1, Out.ok_bind, ih hnd'.2 (by intro v hv; simpa using hlt v (by simp [hv]))]
      · have hf : fresh isNew (m.set a b) r = fresh isNew m r := by
          unfold fresh
          apply List.filter_congr
          intro v hv
          have : a ≠ v := by rintro rfl; exact hnd'.1 hv
          rw [List.getElem?_set_ne this]
        have hf2 : fresh isNew m (a :: r) = a :: fresh isNew m r := by
          unfold fresh
          rw [List.filter_cons_of_pos]
          simp [List.getElem?_eq_getElem ha, hn]
        rw [hf, hf2]
        simp [mark]
      · intro m' hl hm'
        apply hval m' (by simpa using hl)
        intro v x hx hxn
        apply hm' v x _ hxn
        have : a ≠ v := by
          rintro rfl
          rw [List.getElem?_eq_getElem ha] at hx
          cases hx
          rw [hxn] at hn; simp at hn
        rw [List.getElem?_set_ne this, hx]
    · have hn' : isNew m[a] = false := by simpa using hn
      have h1 : discover isNew val (q, m) a = .ok (q, m) := by
        unfold discover
        simp [rd_ok ha, hn']
      have hf2 : fresh isNew m (a :: r) = fresh isNew m r := by
        unfold fresh
        rw [List.filter_cons_of_neg]
        simp [List.getElem?_eq_getElem ha, hn']
      rw [h1, Out.ok_bind, ih hnd'.2 (fun v hv => hlt v (by simp [hv])) hval, hf2]

theorem mem_fresh {isNew : β → Bool} {m : List β} {r : List Nat} {v : Nat} :
    v ∈ fresh isNew m r ↔ v ∈ r ∧ (m[v]?).any isNew = true := by simp [fresh]

/-- Rule for `whileFuel` with an invariant and a measure. -/
theorem whileFuel_inv {cond : σ → Bool} {body : σ → Out σ} (I : σ → Prop) (μ : σ → Nat) {fuel : Nat} {s : σ}
    (h0 : I s) (hm : μ s ≤ fuel)
    (hs : ∀ s, I s → cond s = true → ∃ s', body s = .ok s' ∧ I s' ∧ μ s' < μ s) :
    ∃ s', whileFuel cond body fuel s = .ok s' ∧ I s' ∧ cond s' = false := by
  induction fuel generalizing s with
  | zero =>
    by_cases hc : cond s = true
    · obtain ⟨s', _, _, h⟩ := hs s h0 hc; omega
    · exact ⟨s, by simp [whileFuel, hc], h0, by simpa using hc⟩
  | succ n ih =>
    by_cases hc : cond s = true
    · obtain ⟨s1, h1, h2, h3⟩ := hs s h0 hc
      obtain ⟨s', h4, h5⟩ := ih h2 (by omega)
      exact ⟨s', by simp [whileFuel, hc, h1, h4], h5⟩
    · exact ⟨s, by simp [whileFuel, hc], h0, by simpa using hc⟩

/-- The adjacency relation of rows. -/
def rowRel (L : List (List Nat)) (u v : Nat) : Prop := v ∈ row L u

theorem Graph.Rep.adj_eq {g : Graph} {L} (h : g.Rep L) : Adj g = rowRel L := by
  funext u v; exact propext h.adj_iff

theorem Good.nodup {d : Bool} {L} (h : Good d L) (i : Nat) : (row L i).Nodup := by
  have := h.sorted i
  exact this.imp (fun h => Nat.ne_of_lt h)

theorem row_length_le {d : Bool} {L : List (List Nat)} (hg : Good d L) (i : Nat) : (row L i).length ≤ L.length := by
  have h1 := (hg.nodup i)
  have : (row L i).length ≤ (List.range L.length).length := by
    apply List.Subperm.length_le
    apply List.subperm_of_subset h1
    intro x hx
    exact List.mem_range.mpr (hg.range i x hx)
  simpa using this

/-- Number of unset marks. -/
def unsetCount (isNew : β → Bool) (m : List β) : Nat := m.countP isNew

theorem unsetCount_le (isNew : β → Bool) (m : List β) : unsetCount isNew m ≤ m.length := List.countP_le_length

theorem unsetCount_mark {isNew : β → Bool} {b : β} (hb : isNew b = false) {m : List β} {l : List Nat} (hnd : l.Nodup)
    (hl : ∀ v ∈ l, (m[v]?).any isNew = true) :
    unsetCount isNew (mark m l b) + l.length = unsetCount isNew m := by
  induction l generalizing m with
  | nil => simp [mark]
  | cons a l ih =>
    have hnd' := List.nodup_cons.mp hnd
    have ha := hl a (by simp)
    have halt : a < m.length := by
      by_contra hc
      rw [List.getElem?_eq_none (by omega)] at ha
      simp at ha
    have h1 : unsetCount isNew (m.set a b) + 1 = unsetCount isNew m := by
      unfold unsetCount
      rw [List.countP_set halt]
      rw [List.getElem?_eq_getElem halt] at ha
      have hm : isNew m[a] = true := by simpa using ha
      have : 0 < m.countP isNew := List.countP_pos_iff.mpr ⟨m[a], List.getElem_mem _, hm⟩
      simp only [hm, if_true, hb, Bool.false_eq_true, if_false]
      omega
    have h2 := ih (m := m.set a b) hnd'.2 (by
      intro v hv
      rw [List.getElem?_set_ne (by rintro rfl; exact hnd'.1 hv)]
      exact hl v (by simp [hv]))
    have : mark m (a :: l) b = mark (m.set a b) l b := rfl
    rw [this]
    simp only [List.length_cons]
    omega

end Disa
