import Verif.Lemmas.Dependency

/-! The candidate lists under initialisation and removal. -/
namespace Model
variable {ord : LitOrd}

theorem lookup_initialize_aux (ls : List Lit) (v : List (Finset Lit)) (p : List (Lit × List (Finset Lit))) (l : Lit) :
    (ls.foldl (fun p l => Py.dictSet p l v) p).lookup l = if l ∈ ls then some v else p.lookup l := by
  induction ls generalizing p with
  | nil => simp
  | cons x xs ih =>
    rw [List.foldl_cons, ih, Py.lookup_dictSet]
    by_cases h1 : l ∈ xs
    · simp [h1]
    · by_cases h2 : l = x
      · simp [h2]
      · simp [h1, h2]

/-- The candidates after initialisation. -/
theorem lookup_initialize (ho : EnumOK ord) (n : Nat) (lifted : Finset Lit) (an : Option (Finset Lit)) (l : Lit) :
    ((DepSet.new n).initialize ord lifted an).possible.lookup l =
      if l ∈ lifted then some (createCnf ord (an.getD lifted) n) else none := by
  simp only [DepSet.initialize, DepSet.new, lookup_initialize_aux, ho lifted]
  rfl

theorem mem_supersets (ho : EnumOK ord) {cands : List (Finset Lit)} {rm : Finset Lit} {c : Finset Lit} :
    c ∈ supersetDependencies ord cands rm ↔ c ∈ cands ∧ ∃ x ∈ rm, x ∈ c := by
  unfold supersetDependencies
  simp only [List.mem_flatMap, List.mem_filterMap, ho rm]
  constructor
  · rintro ⟨c', hc', x, hx, h⟩
    split at h
    · rename_i hxc; simp only [Option.some.injEq] at h; subst h; exact ⟨hc', x, hx, hxc⟩
    · simp at h
  · rintro ⟨hc, x, hx, hxc⟩
    exact ⟨c, hc, x, hx, by simp [hxc]⟩

theorem foldl_erase {rm cands : List (Finset Lit)} (hn : cands.Nodup) :
    rm.foldl (fun cs c => if c ∈ cs then cs.erase c else cs) cands = cands.filter (· ∉ rm) := by
  induction rm generalizing cands with
  | nil => simp
  | cons c rm ih =>
    rw [List.foldl_cons]
    have e : (if c ∈ cands then cands.erase c else cands) = cands.filter (· != c) := by
      rw [hn.erase_eq_filter]
      split
      · rfl
      · rename_i h
        symm; rw [List.filter_eq_self]
        intro x hx; simp only [bne_iff_ne, ne_eq]; rintro rfl; exact h hx
    rw [e, ih (hn.filter _), List.filter_filter]
    congr 1
    funext x
    simp only [List.mem_cons, not_or, bne_iff_ne, ne_eq]
    by_cases h1 : x = c <;> by_cases h2 : x ∈ rm <;> simp [h1, h2]

/-- Exact effect of a removal: without supersets, the candidates contained in the removed literals go
away; with supersets, the candidates that contain a removed literal go away. -/
theorem removeCands_eq (ho : EnumNodup ord) {n : Nat} {cands : List (Finset Lit)} (hn : cands.Nodup)
    (hc : ∀ c ∈ cands, c ≠ ∅ ∧ c.card ≤ n) (rm : Finset Lit) (sup : Bool) :
    removeCands ord n cands rm sup =
      cands.filter (fun c => if sup then ∀ x ∈ c, x ∉ rm else ¬ c ⊆ rm) := by
  unfold removeCands
  rw [foldl_erase hn]
  apply List.filter_congr
  intro c hcm
  cases sup with
  | true =>
    simp only [if_true, mem_supersets ho.mem, hcm, true_and, not_exists, not_and, decide_eq_decide]
    exact ⟨fun h x hx hxr => h x hxr hx, fun h x hxr hx => h x hx hxr⟩
  | false =>
    simp only [Bool.false_eq_true, if_false, mem_createCnf ho, decide_eq_decide]
    exact ⟨fun h hs => h ⟨hs, hc c hcm⟩, fun h hs => h hs.1⟩

/-- Well-formed candidates: no repetition, non-empty, bounded. -/
structure CandsOK (n : Nat) (cands : List (Finset Lit)) : Prop where
  nodup : cands.Nodup
  bounds : ∀ c ∈ cands, c ≠ ∅ ∧ c.card ≤ n

theorem CandsOK.filter {n : Nat} {cands : List (Finset Lit)} (h : CandsOK n cands) (p : Finset Lit → Bool) :
    CandsOK n (cands.filter p) := ⟨h.nodup.filter _, fun c hc => h.bounds c (List.mem_of_mem_filter hc)⟩

theorem createCnf_ok (ho : EnumNodup ord) (lits : Finset Lit) (n : Nat) : CandsOK n (createCnf ord lits n) :=
  ⟨createCnf_nodup ho lits n, fun _ hc => (mem_createCnf ho |>.mp hc).2⟩

/-- Every candidate list of the set is well formed. -/
def DepSet.OK (d : DepSet) : Prop := ∀ l cs, d.possible.lookup l = some cs → CandsOK d.maxAnte cs

theorem DepSet.initialize_ok (ho : EnumNodup ord) (n : Nat) (lifted : Finset Lit) (an : Option (Finset Lit)) :
    ((DepSet.new n).initialize ord lifted an).OK := by
  intro l cs h
  rw [lookup_initialize ho.mem] at h
  split at h
  · simp only [Option.some.injEq] at h; subst h; exact createCnf_ok ho _ _
  · simp at h

/-- The candidates of a literal after `remove_dependencies`. -/
theorem lookup_remove (ho : EnumNodup ord) {d : DepSet} (hd : d.OK) (l : Lit) (rm : Finset Lit) (sup : Bool) (l' : Lit) :
    (d.remove ord l rm sup).possible.lookup l' =
      (d.possible.lookup l').map fun cs =>
        if l' = l then cs.filter (fun c => if sup then ∀ x ∈ c, x ∉ rm else ¬ c ⊆ rm) else cs := by
  unfold DepSet.remove
  cases h : d.possible.lookup l with
  | none =>
    by_cases hl : l' = l
    · subst hl; simp [h]
    · simp [hl]
  | some cands =>
    simp only [Py.lookup_dictSet]
    have hok := hd l cands h
    rw [removeCands_eq ho hok.nodup hok.bounds]
    by_cases hl : l' = l
    · subst hl; simp [h]
    · simp [hl]

theorem DepSet.remove_maxAnte (d : DepSet) (l : Lit) (rm : Finset Lit) (sup : Bool) :
    (d.remove ord l rm sup).maxAnte = d.maxAnte := by
  unfold DepSet.remove; split <;> rfl

theorem DepSet.remove_keys (d : DepSet) (l : Lit) (rm : Finset Lit) (sup : Bool) :
    (d.remove ord l rm sup).possible.map Prod.fst = d.possible.map Prod.fst := by
  unfold DepSet.remove
  split
  · rfl
  · rename_i cs h
    simp only [Py.keys_dictSet]
    rw [if_pos]
    by_contra hk
    rw [(Py.lookup_none_iff _ _).mpr hk] at h
    simp at h

theorem DepSet.remove_ok (ho : EnumNodup ord) {d : DepSet} (hd : d.OK) (l : Lit) (rm : Finset Lit) (sup : Bool) :
    (d.remove ord l rm sup).OK := by
  intro l' cs h
  rw [DepSet.remove_maxAnte]
  rw [lookup_remove ho hd, Option.map_eq_some_iff] at h
  obtain ⟨cs', h1, rfl⟩ := h
  split
  · exact (hd l' cs' h1).filter _
  · exact hd l' cs' h1

theorem removes_spec (ho : EnumNodup ord) (ls : List Lit) (rm : Finset Lit) (sup : Bool) (d : DepSet) (hd : d.OK) :
    (ls.foldl (fun d l => d.remove ord l rm sup) d).OK ∧
    (ls.foldl (fun d l => d.remove ord l rm sup) d).maxAnte = d.maxAnte ∧
    (ls.foldl (fun d l => d.remove ord l rm sup) d).possible.map Prod.fst = d.possible.map Prod.fst ∧
    ∀ l', (ls.foldl (fun d l => d.remove ord l rm sup) d).possible.lookup l' =
      (d.possible.lookup l').map fun cs =>
        if l' ∈ ls then cs.filter (fun c => if sup then ∀ x ∈ c, x ∉ rm else ¬ c ⊆ rm) else cs := by
  induction ls generalizing d with
  | nil => simp [hd]
  | cons l ls ih =>
    obtain ⟨h1, h2, h3, h4⟩ := ih (d.remove ord l rm sup) (d.remove_ok ho hd l rm sup)
    refine ⟨h1, by rw [List.foldl_cons, h2, DepSet.remove_maxAnte], by rw [List.foldl_cons, h3, DepSet.remove_keys],
      fun l' => ?_⟩
    rw [List.foldl_cons, h4, lookup_remove ho hd, Option.map_map]
    congr 1
    funext cs
    simp only [Function.comp, List.mem_cons]
    by_cases e1 : l' = l <;> by_cases e2 : l' ∈ ls <;> simp [e1, e2]

/-- `remove_preconditions_literals`: preconditions are no results, and no candidate mentions one. -/
theorem lookup_removePre (ho : EnumNodup ord) {d : DepSet} (hd : d.OK) (pre : Finset Lit) (l : Lit) :
    (d.removePre ord pre).possible.lookup l =
      if l ∈ pre then none else (d.possible.lookup l).map fun cs => cs.filter (fun c => ∀ x ∈ c, x ∉ pre) := by
  unfold DepSet.removePre
  have hlk : ∀ l, (d.possible.filter fun p => p.1 ∉ pre).lookup l = if l ∈ pre then none else d.possible.lookup l := by
    intro l
    have := Py.lookup_filter_key d.possible (fun k => decide (k ∉ pre)) l
    rw [this]
    by_cases h : l ∈ pre <;> simp [h]
  have hd' : DepSet.OK ⟨d.possible.filter fun p => p.1 ∉ pre, d.maxAnte⟩ := by
    intro l cs h
    simp only [hlk] at h
    split at h
    · simp at h
    · exact hd l cs h
  obtain ⟨_, _, _, h4⟩ := removes_spec ho ((d.possible.filter fun p => p.1 ∉ pre).map Prod.fst) pre true _ hd'
  dsimp only
  rw [h4, hlk]
  by_cases hl : l ∈ pre
  · simp [hl]
  · rw [if_neg hl, if_neg hl]
    cases h : d.possible.lookup l with
    | none => rfl
    | some cs =>
      have hm : l ∈ (d.possible.filter fun p => p.1 ∉ pre).map Prod.fst := by
        by_contra hk
        have := (Py.lookup_none_iff _ _).mpr hk
        rw [hlk, if_neg hl, h] at this
        simp at this
      simp only [hm, if_true]

end Model
