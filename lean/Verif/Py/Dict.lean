import Mathlib.Data.List.Perm.Subperm
import Mathlib.Data.List.Nodup

/-! Python dictionaries as association lists in insertion order. -/
namespace Py
variable {κ β : Type} [DecidableEq κ]

/-- `d[k] = v`: overwrite in place or append. -/
def dictSet (d : List (κ × β)) (k : κ) (v : β) : List (κ × β) :=
  if k ∈ d.map Prod.fst then d.map (fun p => if p.1 = k then (k, v) else p) else d ++ [(k, v)]

/-- `{k: v for k, v in l}`. -/
def dictOf (l : List (κ × β)) : List (κ × β) := l.foldl (fun d p => dictSet d p.1 p.2) []

theorem keys_dictSet (d : List (κ × β)) (k : κ) (v : β) :
    (dictSet d k v).map Prod.fst = if k ∈ d.map Prod.fst then d.map Prod.fst else d.map Prod.fst ++ [k] := by
  unfold dictSet
  split
  · rw [List.map_map]; apply List.map_congr_left; intro p _; simp only [Function.comp]; split <;> simp_all
  · simp

theorem keys_foldl_nodup (l d : List (κ × β)) (hd : (d.map Prod.fst).Nodup) :
    ((l.foldl (fun d p => dictSet d p.1 p.2) d).map Prod.fst).Nodup := by
  induction l generalizing d with
  | nil => simpa
  | cons p l ih =>
    apply ih
    rw [keys_dictSet]
    split
    · exact hd
    · rename_i h; rw [List.nodup_append]; exact ⟨hd, by simp, by
        intro a ha b hb; simp at hb; subst hb; rintro rfl; exact h ha⟩

theorem dictOf_keys_nodup (l : List (κ × β)) : ((dictOf l).map Prod.fst).Nodup :=
  keys_foldl_nodup l [] (by simp)

theorem foldl_dictSet_of_nodup (l d : List (κ × β)) (h : ((d ++ l).map Prod.fst).Nodup) :
    l.foldl (fun d p => dictSet d p.1 p.2) d = d ++ l := by
  induction l generalizing d with
  | nil => simp
  | cons p l ih =>
    have hp : p.1 ∉ d.map Prod.fst := by
      rw [List.map_append, List.nodup_append] at h
      intro hm
      exact h.2.2 _ hm _ (by simp) rfl
    have e : dictSet d p.1 p.2 = d ++ [p] := by simp only [dictSet, hp, if_false]
    rw [List.foldl_cons, e, ih _ (by simpa using h)]
    simp

/-- No repeated key: the comprehension is the list itself. -/
theorem dictOf_of_nodup {l : List (κ × β)} (h : (l.map Prod.fst).Nodup) : dictOf l = l := by
  have := foldl_dictSet_of_nodup l [] (by simpa using h)
  simpa [dictOf] using this

theorem mem_keys_foldl (l d : List (κ × β)) (k : κ) :
    k ∈ (l.foldl (fun d p => dictSet d p.1 p.2) d).map Prod.fst ↔ k ∈ d.map Prod.fst ∨ k ∈ l.map Prod.fst := by
  induction l generalizing d with
  | nil => simp
  | cons p l ih =>
    rw [List.foldl_cons, ih, keys_dictSet]
    split <;> (simp only [List.map_cons, List.mem_cons, List.mem_append, List.not_mem_nil, or_false]; grind)

theorem mem_keys_dictOf {l : List (κ × β)} {k : κ} : k ∈ (dictOf l).map Prod.fst ↔ k ∈ l.map Prod.fst := by
  have := mem_keys_foldl l [] k
  simpa [dictOf] using this

/-- The comprehension has as many entries as the list exactly when no key is repeated. -/
theorem length_dictOf {l : List (κ × β)} : (dictOf l).length = l.length ↔ (l.map Prod.fst).Nodup := by
  constructor
  · intro h
    have h1 : ((dictOf l).map Prod.fst) ⊆ l.map Prod.fst := fun k hk => mem_keys_dictOf.mp hk
    have h2 := List.subperm_of_subset (dictOf_keys_nodup l) h1
    have h3 := h2.perm_of_length_le (by simp [h])
    exact h3.nodup_iff.mp (dictOf_keys_nodup l)
  · intro h; rw [dictOf_of_nodup h]

section
variable [BEq κ] [LawfulBEq κ]

theorem lookup_map_set (d : List (κ × β)) (k : κ) (v : β) (k' : κ) :
    (d.map (fun p => if p.1 = k then (k, v) else p)).lookup k' =
      if k' = k then (if k ∈ d.map Prod.fst then some v else none) else d.lookup k' := by
  induction d with
  | nil => simp
  | cons p d ih =>
    obtain ⟨a, b⟩ := p
    rw [List.map_cons]
    by_cases ha : a = k
    · subst ha
      simp only [if_true, List.lookup_cons, List.map_cons, List.mem_cons, true_or]
      by_cases hk : k' = a
      · subst hk; simp
      · have : (k' == a) = false := by simpa using hk
        simp only [this, ih, hk, if_false]
    · simp only [ha, if_false, List.lookup_cons, List.map_cons, List.mem_cons]
      by_cases hk : k' = a
      · subst hk; simp [ha]
      · have : (k' == a) = false := by simpa using hk
        simp only [this, ih]
        by_cases hkk : k' = k
        · subst hkk; simp only [if_true, hk, false_or]
        · simp [hkk]

theorem lookup_append_one (d : List (κ × β)) (k : κ) (v : β) (k' : κ) (h : k ∉ d.map Prod.fst) :
    (d ++ [(k, v)]).lookup k' = if k' = k then some v else d.lookup k' := by
  induction d with
  | nil =>
    by_cases hk : k' = k
    · subst hk; simp
    · have : (k' == k) = false := by simpa using hk
      simp [List.lookup_cons, this, hk]
  | cons p d ih =>
    obtain ⟨a, b⟩ := p
    simp only [List.map_cons, List.mem_cons, not_or] at h
    simp only [List.cons_append, List.lookup_cons]
    by_cases hk : k' = a
    · subst hk; simp [Ne.symm h.1]
    · have : (k' == a) = false := by simpa using hk
      simp only [this, ih h.2]

/-- Reading a dictionary after `d[k] = v`. -/
theorem lookup_dictSet (d : List (κ × β)) (k : κ) (v : β) (k' : κ) :
    (dictSet d k v).lookup k' = if k' = k then some v else d.lookup k' := by
  unfold dictSet
  split
  · rename_i h; rw [lookup_map_set]; simp only [h, if_true]
  · rename_i h; exact lookup_append_one d k v k' h

theorem lookup_none_iff (d : List (κ × β)) (k : κ) : d.lookup k = none ↔ k ∉ d.map Prod.fst := by
  induction d with
  | nil => simp
  | cons p d ih =>
    obtain ⟨a, b⟩ := p
    simp only [List.lookup_cons, List.map_cons, List.mem_cons, not_or]
    by_cases hk : k = a
    · subst hk; simp
    · have : (k == a) = false := by simpa using hk
      simp only [this, ih, hk, not_false_iff, true_and]

theorem lookup_filter_key (d : List (κ × β)) (p : κ → Bool) (k : κ) :
    (d.filter (fun x => p x.1)).lookup k = if p k then d.lookup k else none := by
  induction d with
  | nil => simp
  | cons q d ih =>
    obtain ⟨a, b⟩ := q
    rw [List.filter_cons]
    by_cases hk : k = a
    · subst hk
      cases hp : p k <;> simp [hp, ih]
    · have : (k == a) = false := by simpa using hk
      cases hp : p a <;> simp [List.lookup_cons, this, ih]

end

end Py
