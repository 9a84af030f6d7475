import Verif.Model.Graph
import Verif.Spec.Groups
import Mathlib.Data.Finset.Card
import Mathlib.Logic.Function.Iterate

namespace Model
open Spec
variable {α : Type} [DecidableEq α]

/-- Both end points of every edge are nodes, and no node is repeated. -/
structure Graph.WF (G : Graph α) : Prop where
  nodup : G.nodes.Nodup
  ends : ∀ e ∈ G.edges, e.1 ∈ G.nodes ∧ e.2 ∈ G.nodes

/-- Adjacency. -/
def Graph.Adj (G : Graph α) (x y : α) : Prop := (x, y) ∈ G.edges ∨ (y, x) ∈ G.edges

theorem mem_nbrs {G : Graph α} {v w : α} : w ∈ G.nbrs v ↔ G.Adj v w := by
  unfold Graph.nbrs Graph.Adj
  rw [List.mem_toFinset, List.mem_filterMap]
  constructor
  · rintro ⟨⟨a, b⟩, he, h⟩
    split at h
    · rename_i e; dsimp only at e; subst e; cases h; exact Or.inl he
    · split at h
      · rename_i e; dsimp only at e; subst e; cases h; exact Or.inr he
      · simp at h
  · rintro (h | h)
    · exact ⟨_, h, by simp⟩
    · refine ⟨_, h, ?_⟩
      dsimp only
      by_cases e : w = v
      · simp [e]
      · simp [e]

theorem adj_symm {G : Graph α} {v w : α} (h : G.Adj v w) : G.Adj w v := h.symm

theorem subset_grow (G : Graph α) (s : Finset α) : s ⊆ G.grow s := Finset.subset_union_left

theorem mem_grow {G : Graph α} {s : Finset α} {w : α} : w ∈ G.grow s ↔ w ∈ s ∨ ∃ v ∈ s, G.Adj v w := by
  unfold Graph.grow; rw [Finset.mem_union, Finset.mem_biUnion]; simp only [mem_nbrs]

theorem iter_sub {G : Graph α} (hG : G.WF) {s : Finset α} (hs : s ⊆ G.nodes.toFinset) (k : Nat) : G.grow^[k] s ⊆ G.nodes.toFinset := by
  induction k generalizing s with
  | zero => exact hs
  | succ k ih =>
    rw [Function.iterate_succ_apply]
    refine ih fun w hw => ?_
    rcases mem_grow.mp hw with h | ⟨v, _, h | h⟩
    · exact hs h
    · exact List.mem_toFinset.mpr (hG.ends _ h).2
    · exact List.mem_toFinset.mpr (hG.ends _ h).1

theorem iter_card (G : Graph α) {s : Finset α} (hs : s.Nonempty) (k : Nat) :
    G.grow (G.grow^[k] s) = G.grow^[k] s ∨ k + 1 ≤ (G.grow^[k] s).card := by
  induction k with
  | zero => exact Or.inr (Finset.card_pos.mpr hs)
  | succ k ih =>
    rw [Function.iterate_succ_apply']
    rcases ih with h | h
    · left; rw [h, h]
    · by_cases he : G.grow (G.grow^[k] s) = G.grow^[k] s
      · left; rw [he, he]
      · right
        have := Finset.card_lt_card (Finset.ssubset_iff_subset_ne.mpr ⟨subset_grow G (G.grow^[k] s), fun h => he h.symm⟩)
        omega

theorem plainBfs_fix {G : Graph α} (hG : G.WF) {v : α} (hv : v ∈ G.nodes) : G.grow (G.plainBfs v) = G.plainBfs v := by
  rcases iter_card G (Finset.singleton_nonempty v) G.nodes.length with h | h
  · exact h
  · have := Finset.card_le_card (iter_sub hG (s := {v}) (by simpa using hv) G.nodes.length)
    rw [List.toFinset_card_of_nodup hG.nodup] at this
    omega

/-- The search finds exactly what can be reached. -/
theorem mem_plainBfs {G : Graph α} (hG : G.WF) {v w : α} (hv : v ∈ G.nodes) : w ∈ G.plainBfs v ↔ Relation.ReflTransGen G.Adj v w := by
  constructor
  · have : ∀ k w, w ∈ G.grow^[k] {v} → Relation.ReflTransGen G.Adj v w := by
      intro k
      induction k with
      | zero => intro w hw; rw [Function.iterate_zero, id, Finset.mem_singleton] at hw; rw [hw]
      | succ k ih =>
        intro w hw
        rw [Function.iterate_succ_apply'] at hw
        rcases mem_grow.mp hw with h | ⟨u, hu, h⟩
        · exact ih w h
        · exact (ih u hu).tail h
    exact this _ w
  · intro h
    induction h with
    | refl =>
      have : ∀ k, v ∈ G.grow^[k] {v} := by
        intro k
        induction k with
        | zero => simp
        | succ k ih => rw [Function.iterate_succ_apply']; exact subset_grow G _ ih
      exact this _
    | tail _ hab ih => rw [← plainBfs_fix hG hv]; exact mem_grow.mpr (Or.inr ⟨_, ih, hab⟩)

theorem reach_symm {G : Graph α} {v w : α} (h : Relation.ReflTransGen G.Adj v w) : Relation.ReflTransGen G.Adj w v := by
  induction h with
  | refl => exact Relation.ReflTransGen.refl
  | tail _ hab ih => exact Relation.ReflTransGen.head (adj_symm hab) ih

/-- The components: pairwise disjoint, covering the nodes, each the set reachable from any of its elements. -/
theorem components_spec {G : Graph α} (hG : G.WF) :
    G.components.Pairwise Disjoint ∧ (∀ v, v ∈ G.nodes ↔ ∃ C ∈ G.components, v ∈ C) ∧
    (∀ C ∈ G.components, C.Nonempty) ∧ ∀ C ∈ G.components, ∀ v ∈ C, ∀ w, w ∈ C ↔ Relation.ReflTransGen G.Adj v w := by
  have key : ∀ (xs : List α) (seen : Finset α) (out : List (Finset α)), (∀ v ∈ xs, v ∈ G.nodes) →
      (∀ v, v ∈ seen ↔ ∃ C ∈ out, v ∈ C) → out.Pairwise Disjoint → (∀ C ∈ out, ∃ v ∈ G.nodes, C = G.plainBfs v) →
      let r := xs.foldl (fun st v => if v ∈ st.1 then st else (st.1 ∪ G.plainBfs v, st.2 ++ [G.plainBfs v])) (seen, out)
      r.2.Pairwise Disjoint ∧ (∀ C ∈ r.2, ∃ v ∈ G.nodes, C = G.plainBfs v) ∧ (∀ v ∈ xs, ∃ C ∈ r.2, v ∈ C) ∧ ∀ C ∈ out, C ∈ r.2 := by
    intro xs
    induction xs with
    | nil => intro seen out _ _ h2 h3; exact ⟨h2, h3, by simp, fun C hC => hC⟩
    | cons x xs ih =>
      intro seen out h0 h1 h2 h3
      have h0' : ∀ v ∈ xs, v ∈ G.nodes := fun v hv => h0 v (List.mem_cons_of_mem _ hv)
      have hx : x ∈ G.nodes := h0 x List.mem_cons_self
      have hself : x ∈ G.plainBfs x := (mem_plainBfs hG hx).mpr Relation.ReflTransGen.refl
      rw [List.foldl_cons]
      dsimp only
      by_cases hin : x ∈ seen
      · simp only [hin, if_true]
        obtain ⟨i1, i2, i3, i4⟩ := ih seen out h0' h1 h2 h3
        refine ⟨i1, i2, fun v hv => ?_, i4⟩
        rcases List.mem_cons.mp hv with rfl | hv
        · obtain ⟨C, hC, hv⟩ := (h1 _).mp hin; exact ⟨C, i4 C hC, hv⟩
        · exact i3 v hv
      · simp only [hin, if_false]
        have s1 : ∀ v, v ∈ seen ∪ G.plainBfs x ↔ ∃ C ∈ out ++ [G.plainBfs x], v ∈ C := by
          intro v; rw [Finset.mem_union, h1]; simp only [List.mem_append, List.mem_singleton]
          constructor
          · rintro (⟨C, hC, hv⟩ | hv)
            · exact ⟨C, Or.inl hC, hv⟩
            · exact ⟨_, Or.inr rfl, hv⟩
          · rintro ⟨C, hC | rfl, hv⟩
            · exact Or.inl ⟨C, hC, hv⟩
            · exact Or.inr hv
        have s2 : (out ++ [G.plainBfs x]).Pairwise Disjoint := by
          rw [List.pairwise_append]
          refine ⟨h2, by simp, fun C hC C' hC' => ?_⟩
          rw [List.mem_singleton] at hC'; subst hC'
          rw [Finset.disjoint_left]
          intro w hw hw'
          apply hin
          rw [h1]
          obtain ⟨u, hu, rfl⟩ := h3 C hC
          refine ⟨_, hC, (mem_plainBfs hG hu).mpr ?_⟩
          exact ((mem_plainBfs hG hu).mp hw).trans (reach_symm ((mem_plainBfs hG hx).mp hw'))
        have s3 : ∀ C ∈ out ++ [G.plainBfs x], ∃ v ∈ G.nodes, C = G.plainBfs v := by
          intro C hC
          rcases List.mem_append.mp hC with hC | hC
          · exact h3 C hC
          · rw [List.mem_singleton] at hC; exact ⟨x, hx, hC⟩
        obtain ⟨i1, i2, i3, i4⟩ := ih (seen ∪ G.plainBfs x) (out ++ [G.plainBfs x]) h0' s1 s2 s3
        refine ⟨i1, i2, fun v hv => ?_, fun C hC => i4 C (by simp [hC])⟩
        rcases List.mem_cons.mp hv with rfl | hv
        · exact ⟨_, i4 _ (by simp), hself⟩
        · exact i3 v hv
  obtain ⟨k1, k2, k3, _⟩ := key G.nodes ∅ [] (fun v hv => hv) (by simp) List.Pairwise.nil (by simp)
  refine ⟨k1, fun v => ⟨k3 v, ?_⟩, fun C hC => ?_, ?_⟩
  · rintro ⟨C, hC, hv⟩
    obtain ⟨u, hu, rfl⟩ := k2 C hC
    exact List.mem_toFinset.mp (iter_sub hG (s := {u}) (by simpa using hu) _ hv)
  · obtain ⟨u, hu, rfl⟩ := k2 C hC
    exact ⟨u, (mem_plainBfs hG hu).mpr Relation.ReflTransGen.refl⟩
  · intro C hC v hv w
    obtain ⟨u, hu, rfl⟩ := k2 C hC
    rw [mem_plainBfs hG hu] at hv ⊢
    exact ⟨fun h => (reach_symm hv).trans h, fun h => hv.trans h⟩

/-! ### Building the graph -/

theorem addNode_wf {G : Graph α} (h : G.WF) (v : α) : (G.addNode v).WF ∧ (G.addNode v).edges = G.edges ∧
    ∀ x, x ∈ (G.addNode v).nodes ↔ x ∈ G.nodes ∨ x = v := by
  unfold Graph.addNode
  split
  · rename_i hv; exact ⟨h, rfl, fun x => ⟨Or.inl, fun hx => hx.elim id fun e => e ▸ hv⟩⟩
  · rename_i hv
    refine ⟨⟨?_, ?_⟩, rfl, by simp⟩
    · exact List.nodup_append.mpr ⟨h.nodup, by simp, by rintro a ha b hb rfl; simp at hb; exact hv (hb ▸ ha)⟩
    · intro e he; obtain ⟨h1, h2⟩ := h.ends e he; simp [h1, h2]

theorem addEdge_wf {G : Graph α} (h : G.WF) (e : α × α) : (G.addEdge e).WF ∧ (G.addEdge e).edges = G.edges ++ [e] ∧
    ∀ x, x ∈ (G.addEdge e).nodes ↔ x ∈ G.nodes ∨ x = e.1 ∨ x = e.2 := by
  obtain ⟨a1, a2, a3⟩ := addNode_wf h e.1
  obtain ⟨b1, b2, b3⟩ := addNode_wf a1 e.2
  have hn : ∀ x, x ∈ ((G.addNode e.1).addNode e.2).nodes ↔ x ∈ G.nodes ∨ x = e.1 ∨ x = e.2 := by
    intro x; rw [b3, a3, or_assoc]
  refine ⟨⟨b1.nodup, ?_⟩, ?_, hn⟩
  · intro e' he'
    simp only [Graph.addEdge, List.mem_append, List.mem_singleton] at he'
    rcases he' with he' | rfl
    · exact b1.ends e' he'
    · exact ⟨(hn _).mpr (Or.inr (Or.inl rfl)), (hn _).mpr (Or.inr (Or.inr rfl))⟩
  · simp only [Graph.addEdge, b2, a2]

theorem addEdges_wf {G : Graph α} (h : G.WF) (es : List (α × α)) : (es.foldl Graph.addEdge G).WF ∧
    (es.foldl Graph.addEdge G).edges = G.edges ++ es ∧
    ∀ x, x ∈ (es.foldl Graph.addEdge G).nodes ↔ x ∈ G.nodes ∨ ∃ e ∈ es, x = e.1 ∨ x = e.2 := by
  induction es generalizing G with
  | nil => exact ⟨h, by simp, by simp⟩
  | cons e es ih =>
    obtain ⟨a1, a2, a3⟩ := addEdge_wf h e
    obtain ⟨b1, b2, b3⟩ := ih a1
    refine ⟨b1, by rw [List.foldl_cons, b2, a2]; simp, fun x => ?_⟩
    rw [List.foldl_cons, b3, a3]
    simp only [List.mem_cons]
    constructor
    · rintro ((h | h) | ⟨e', he', h⟩)
      · exact Or.inl h
      · exact Or.inr ⟨e, Or.inl rfl, h⟩
      · exact Or.inr ⟨e', Or.inr he', h⟩
    · rintro (h | ⟨e', rfl | he', h⟩)
      · exact Or.inl (Or.inl h)
      · exact Or.inl (Or.inr h)
      · exact Or.inr ⟨e', he', h⟩

theorem pairs_mem {g : List α} {x y : α} (h : (x, y) ∈ pairs g) : x ∈ g ∧ y ∈ g := by
  induction g with
  | nil => simp [pairs] at h
  | cons a g ih =>
    simp only [pairs, List.mem_append, List.mem_map, Prod.mk.injEq] at h
    rcases h with ⟨b, hb, rfl, rfl⟩ | h
    · exact ⟨List.mem_cons_self, List.mem_cons_of_mem _ hb⟩
    · exact ⟨List.mem_cons_of_mem _ (ih h).1, List.mem_cons_of_mem _ (ih h).2⟩

theorem mem_pairs {g : List α} {x y : α} (hx : x ∈ g) (hy : y ∈ g) (hne : x ≠ y) : (x, y) ∈ pairs g ∨ (y, x) ∈ pairs g := by
  induction g with
  | nil => simp at hx
  | cons a g ih =>
    simp only [pairs, List.mem_append, List.mem_map, Prod.mk.injEq]
    rcases List.mem_cons.mp hx with hxa | hxg
    · rcases List.mem_cons.mp hy with hya | hyg
      · exact absurd (hxa.trans hya.symm) hne
      · exact Or.inl (Or.inl ⟨y, hyg, hxa.symm, rfl⟩)
    · rcases List.mem_cons.mp hy with hya | hyg
      · exact Or.inr (Or.inl ⟨x, hxg, hya.symm, rfl⟩)
      · rcases ih hxg hyg with h | h
        · exact Or.inl (Or.inr h)
        · exact Or.inr (Or.inr h)

/-- The graph after adding some groups. -/
structure GraphOf (G : Graph α) (groups : List (List α)) : Prop where
  wf : G.WF
  nodes : ∀ x, x ∈ G.nodes ↔ ∃ g ∈ groups, x ∈ g
  sound : ∀ x y, G.Adj x y → Together groups x y
  complete : ∀ x y, Together groups x y → x = y ∨ G.Adj x y

theorem GraphOf.add {G G' : Graph α} {groups : List (List α)} {g : List α} (h : GraphOf G groups) (hg : G.addGroup g = .ok G') :
    GraphOf G' (groups ++ [g]) := by
  have htog : ∀ x y, Together (groups ++ [g]) x y ↔ Together groups x y ∨ (x ∈ g ∧ y ∈ g) := by
    intro x y; unfold Together
    constructor
    · rintro ⟨g', hg', h1⟩
      rcases List.mem_append.mp hg' with h2 | h2
      · exact Or.inl ⟨g', h2, h1⟩
      · rw [List.mem_singleton] at h2; exact Or.inr (h2 ▸ h1)
    · rintro (⟨g', hg', h1⟩ | h1)
      · exact ⟨g', by simp [hg'], h1⟩
      · exact ⟨g, by simp, h1⟩
  match g, hg with
  | [v], hg =>
    simp only [Graph.addGroup, Except.ok.injEq] at hg
    subst hg
    obtain ⟨a1, a2, a3⟩ := addNode_wf h.wf v
    refine ⟨a1, fun x => ?_, fun x y hxy => ?_, fun x y hxy => ?_⟩
    · rw [a3, h.nodes]
      constructor
      · rintro (⟨g, hg, hx⟩ | rfl)
        · exact ⟨g, by simp [hg], hx⟩
        · exact ⟨[x], by simp, by simp⟩
      · rintro ⟨g, hg, hx⟩
        rcases List.mem_append.mp hg with hg | hg
        · exact Or.inl ⟨g, hg, hx⟩
        · rw [List.mem_singleton] at hg; subst hg; exact Or.inr (List.mem_singleton.mp hx)
    · refine (htog x y).mpr (Or.inl (h.sound x y ?_))
      unfold Graph.Adj at hxy ⊢; rwa [a2] at hxy
    · rcases (htog x y).mp hxy with h1 | ⟨h1, h2⟩
      · rcases h.complete x y h1 with e | e
        · exact Or.inl e
        · right; unfold Graph.Adj at e ⊢; rwa [a2]
      · rw [List.mem_singleton] at h1 h2; exact Or.inl (h1.trans h2.symm)
  | a :: b :: l, hg =>
    simp only [Graph.addGroup, Except.ok.injEq] at hg
    subst hg
    obtain ⟨a1, a2, a3⟩ := addEdges_wf h.wf (pairs (a :: b :: l))
    have hcov : ∀ x, x ∈ a :: b :: l ↔ ∃ e ∈ pairs (a :: b :: l), x = e.1 ∨ x = e.2 := by
      intro x
      constructor
      · intro hx
        rcases List.mem_cons.mp hx with rfl | hx
        · exact ⟨(x, b), by simp [pairs], Or.inl rfl⟩
        · refine ⟨(a, x), ?_, Or.inr rfl⟩
          simp only [pairs, List.mem_append, List.mem_map, Prod.mk.injEq, true_and, exists_eq_right]
          exact Or.inl hx
      · rintro ⟨⟨u, w⟩, he, rfl | rfl⟩
        · exact (pairs_mem he).1
        · exact (pairs_mem he).2
    refine ⟨a1, fun x => ?_, fun x y hxy => ?_, fun x y hxy => ?_⟩
    · rw [a3, h.nodes, ← hcov]
      constructor
      · rintro (⟨g, hg, hx⟩ | hx)
        · exact ⟨g, by simp [hg], hx⟩
        · exact ⟨_, by simp, hx⟩
      · rintro ⟨g, hg, hx⟩
        rcases List.mem_append.mp hg with hg | hg
        · exact Or.inl ⟨g, hg, hx⟩
        · rw [List.mem_singleton] at hg; subst hg; exact Or.inr hx
    · rw [htog]
      unfold Graph.Adj at hxy
      rw [a2, List.mem_append, List.mem_append] at hxy
      rcases hxy with (h1 | h1) | (h1 | h1)
      · exact Or.inl (h.sound x y (Or.inl h1))
      · exact Or.inr (pairs_mem h1)
      · exact Or.inl (h.sound x y (Or.inr h1))
      · exact Or.inr (pairs_mem h1).symm
    · unfold Graph.Adj
      rw [a2, List.mem_append, List.mem_append]
      rcases (htog x y).mp hxy with h1 | ⟨h1, h2⟩
      · rcases h.complete x y h1 with e | e | e
        · exact Or.inl e
        · exact Or.inr (Or.inl (Or.inl e))
        · exact Or.inr (Or.inr (Or.inl e))
      · by_cases e : x = y
        · exact Or.inl e
        · rcases mem_pairs h1 h2 e with k | k
          · exact Or.inr (Or.inl (Or.inr k))
          · exact Or.inr (Or.inr (Or.inr k))

theorem GraphOf.addAll {G : Graph α} {done : List (List α)} (h : GraphOf G done) (gs : List (List α)) :
    (∀ G', gs.foldlM Graph.addGroup G = .ok G' → GraphOf G' (done ++ gs)) ∧
    ((∃ G', gs.foldlM Graph.addGroup G = .ok G') ↔ [] ∉ gs) ∧ ([] ∈ gs → gs.foldlM Graph.addGroup G = .error .stopIteration) := by
  induction gs generalizing G done with
  | nil =>
    refine ⟨fun G' hG' => ?_, ⟨fun _ => by simp, fun _ => ⟨G, rfl⟩⟩, by simp⟩
    simp only [List.foldlM_nil, pure, Except.pure, Except.ok.injEq] at hG'
    subst hG'; simpa using h
  | cons g gs ih =>
    rw [List.foldlM_cons]
    cases hg : G.addGroup g with
    | error e =>
      have hgn : g = [] ∧ e = .stopIteration := by
        match g, hg with
        | [], hg => simp only [Graph.addGroup, Except.error.injEq] at hg; exact ⟨rfl, hg.symm⟩
        | [v], hg => simp [Graph.addGroup] at hg
        | a :: b :: l, hg => simp [Graph.addGroup] at hg
      obtain ⟨rfl, rfl⟩ := hgn
      exact ⟨fun G' hG' => by simp [bind, Except.bind] at hG', by simp [bind, Except.bind], fun _ => rfl⟩
    | ok G1 =>
      obtain ⟨i1, i2, i3⟩ := ih (h.add hg)
      have hgn : g ≠ [] := by rintro rfl; simp [Graph.addGroup] at hg
      simp only [bind, Except.bind]
      refine ⟨fun G' hG' => by simpa using i1 G' hG', ?_, fun hm => i3 ?_⟩
      · rw [i2, List.mem_cons, not_or]; exact ⟨fun h => ⟨fun e => hgn e.symm, h⟩, fun h => h.2⟩
      · exact (List.mem_cons.mp hm).resolve_left fun e => hgn e.symm

end Model
