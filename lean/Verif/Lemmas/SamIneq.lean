import Verif.Lemmas.SamPolicy

namespace Model
open Spec

theorem mem_sameTypePairs {sig : Sig} {x y : String} :
    (x, y) ∈ sameTypePairs sig ↔ ∃ tx ty : PType, [(x, tx), (y, ty)].Sublist sig ∧ tx.name = ty.name := by
  unfold sameTypePairs
  simp only [List.mem_toFinset, List.mem_filterMap, Py.mem_combs]
  constructor
  · rintro ⟨l, ⟨h1, h2⟩, h3⟩
    match l, h1 with
    | [(x', tx), (y', ty)], _ =>
      simp only at h3
      split at h3
      · rename_i ht
        simp only [Option.some.injEq, Prod.mk.injEq] at h3
        obtain ⟨rfl, rfl⟩ := h3
        exact ⟨tx, ty, h2, ht⟩
      · simp at h3
  · rintro ⟨tx, ty, h1, h2⟩
    exact ⟨[(x, tx), (y, ty)], ⟨rfl, h1⟩, by simp [h2]⟩

theorem zip_eq_map {params call : List String} (hp : params.Nodup) (hlen : call.length = params.length) :
    call.zip params = params.map fun x => (subst params call x, x) := by
  have h := map_bind hp hlen
  conv_lhs => rw [← h]
  rw [List.zip_map_left]
  have : ∀ l : List String, (l.zip l).map (Prod.map (subst params call) id) = l.map fun x => (subst params call x, x) := by
    intro l; induction l with
    | nil => rfl
    | cons a l ih => simp [ih]
  exact this params

theorem mem_duplicatePairs {sig : Sig} {call : List String} {x y : String}
    (hp : (Sig.names sig).Nodup) (hlen : call.length = sig.length) :
    (x, y) ∈ duplicatePairs sig call ↔ [x, y].Sublist (Sig.names sig) ∧
      subst (Sig.names sig) call x = subst (Sig.names sig) call y := by
  unfold duplicatePairs
  rw [zip_eq_map hp (by simp [hlen])]
  set ρ := subst (Sig.names sig) call with hρ
  set names := Sig.names sig with hnames
  simp only [List.mem_flatMap, List.mem_map, List.mem_filterMap, Py.mem_combs]
  constructor
  · rintro ⟨g, ⟨p, ⟨z, hz, rfl⟩, rfl⟩, l, ⟨h1, h2⟩, h3⟩
    match l, h1 with
    | [x', y'], _ =>
      simp only [Option.some.injEq, Prod.mk.injEq] at h3
      obtain ⟨rfl, rfl⟩ := h3
      rw [List.filter_map, List.map_map] at h2
      have h2' : [x', y'].Sublist (names.filter ((fun q : String × String => decide (q.1 = ρ z)) ∘ fun x => (ρ x, x))) := by
        have e : (Prod.snd ∘ fun x => (ρ x, x)) = (id : String → String) := rfl
        rw [e, List.map_id] at h2; exact h2
      have hm : ∀ w ∈ [x', y'], ρ w = ρ z := by
        intro w hw
        have := (List.mem_filter.mp (h2'.subset hw)).2
        simpa using this
      exact ⟨h2'.trans List.filter_sublist, by rw [hm x' (by simp), hm y' (by simp)]⟩
  · rintro ⟨h1, h2⟩
    refine ⟨_, ⟨(ρ x, x), ⟨x, h1.subset (by simp), rfl⟩, rfl⟩, [x, y], ⟨rfl, ?_⟩, rfl⟩
    rw [List.filter_map, List.map_map]
    have e : (Prod.snd ∘ fun x => (ρ x, x)) = (id : String → String) := rfl
    rw [e, List.map_id]
    have : [x, y] = [x, y].filter ((fun q : String × String => decide (q.1 = ρ x)) ∘ fun x => (ρ x, x)) := by
      simp [h2]
    rw [this]
    exact h1.filter _

end Model
