import Verif.Props.MacroSafe

/-! C54, further: which macros MA-SAM+ builds, how they are named and reported. -/
namespace Props
open Model Spec

section
variable {ord : Finset Lit → List Lit} {gord : Finset (String × String) → List (String × String)} {sortG : Finset String → List String}
  {uuid : Nat → String} {L : MaLearner}

/-- A set of actions that could not be told apart: the actions of a clause with several literals that contains an action without a safe
model. -/
def Unresolved (L : MaLearner) (b : Finset String) : Prop :=
  ∃ F ∈ L.cnfs, ∃ c ∈ F.clauses, 1 < c.length ∧ (∃ p ∈ c, p.1 ∈ L.unsafeActs) ∧
    b = L.base.dom.names.toFinset.filter fun a => a ∈ c.map Prod.fst

theorem baseGroups_mem (cs : List (List (String × Lit))) (gs : List (Finset String)) (g : Finset String) :
    g ∈ cs.foldl (fun gs c =>
        if c.length > 1 ∧ ∃ p ∈ c, p.1 ∈ L.unsafeActs then
          let g := (L.base.dom.names.filter fun a => decide (a ∈ c.map Prod.fst)).toFinset
          if g ∈ gs then gs else gs ++ [g]
        else gs) gs ↔
      g ∈ gs ∨ ∃ c ∈ cs, 1 < c.length ∧ (∃ p ∈ c, p.1 ∈ L.unsafeActs) ∧ g = L.base.dom.names.toFinset.filter fun a => a ∈ c.map Prod.fst := by
  induction cs generalizing gs with
  | nil => simp
  | cons c cs ih =>
    rw [List.foldl_cons, ih]
    have hg : (L.base.dom.names.filter fun a => decide (a ∈ c.map Prod.fst)).toFinset =
        L.base.dom.names.toFinset.filter fun a => a ∈ c.map Prod.fst := by
      ext x; simp
    by_cases h : c.length > 1 ∧ ∃ p ∈ c, p.1 ∈ L.unsafeActs
    · rw [if_pos h]
      dsimp only
      rw [hg]
      constructor
      · rintro (h1 | ⟨c', hc', h2⟩)
        · split at h1
          · exact Or.inl h1
          · rcases List.mem_append.mp h1 with h1 | h1
            · exact Or.inl h1
            · exact Or.inr ⟨c, List.mem_cons_self, h.1, h.2, List.mem_singleton.mp h1⟩
        · exact Or.inr ⟨c', List.mem_cons_of_mem _ hc', h2⟩
      · rintro (h1 | ⟨c', hc', h2⟩)
        · refine Or.inl ?_
          split
          · exact h1
          · exact List.mem_append_left _ h1
        · rcases List.mem_cons.mp hc' with rfl | hc'
          · refine Or.inl ?_
            rw [h2.2.2]
            split
            · assumption
            · exact List.mem_append_right _ (List.mem_singleton.mpr rfl)
          · exact Or.inr ⟨c', hc', h2⟩
    · rw [if_neg h]
      constructor
      · rintro (h1 | ⟨c', hc', h2⟩)
        · exact Or.inl h1
        · exact Or.inr ⟨c', List.mem_cons_of_mem _ hc', h2⟩
      · rintro (h1 | ⟨c', hc', h2⟩)
        · exact Or.inl h1
        · rcases List.mem_cons.mp hc' with rfl | hc'
          · exact absurd ⟨h2.1, h2.2.1⟩ h
          · exact Or.inr ⟨c', hc', h2⟩

theorem foldr_union (l : List (Finset String)) : l.foldr (· ∪ ·) ∅ = l.toFinset.biUnion id := by
  induction l with
  | nil => rfl
  | cons x l ih => rw [List.foldr_cons, ih, List.toFinset_cons, Finset.biUnion_insert]; rfl

theorem mem_supersetsOf {groups : List (Finset String)} (g : Finset String) :
    g ∈ supersetsOf groups ↔ ∃ S : Finset (Finset String), S.Nonempty ∧ (∀ b ∈ S, b ∈ groups) ∧ g = S.biUnion id := by
  unfold supersetsOf
  simp only [List.mem_flatMap, List.mem_map, List.mem_range'_1]
  constructor
  · rintro ⟨r, ⟨h1, _⟩, gs, hgs, rfl⟩
    obtain ⟨hlen, hsub⟩ := Py.mem_combs.mp hgs
    refine ⟨gs.toFinset, ?_, fun b hb => hsub.subset (List.mem_toFinset.mp hb), foldr_union gs⟩
    cases gs with
    | nil => simp at hlen; omega
    | cons x xs => exact ⟨x, by simp⟩
  · rintro ⟨S, hS, hsub, rfl⟩
    have hd : (groups.dedup.filter fun b => b ∈ S).Sublist groups := (List.filter_sublist).trans (List.dedup_sublist groups)
    have hto : (groups.dedup.filter fun b => b ∈ S).toFinset = S := by
      ext b
      simp only [List.mem_toFinset, List.mem_filter, List.mem_dedup, decide_eq_true_eq]
      exact ⟨fun h => h.2, fun h => ⟨hsub b h, h⟩⟩
    refine ⟨(groups.dedup.filter fun b => b ∈ S).length, ⟨?_, ?_⟩, groups.dedup.filter fun b => b ∈ S, Py.mem_combs.mpr ⟨rfl, hd⟩, ?_⟩
    · obtain ⟨b, hb⟩ := hS
      apply List.length_pos_of_mem (a := b)
      rw [← List.mem_toFinset, hto]; exact hb
    · have := hd.length_le; omega
    · rw [foldr_union, hto]

/-- The macros are built one per group, in order, from the sorted group. -/
theorem buildMacros_acts : ∀ (gs : List (Finset String)) (done Ms : List MacroAct), L.buildMacros ord gord sortG uuid done gs = .ok Ms →
    Ms.map (·.acts) = done.map (·.acts) ++ gs.map sortG := by
  intro gs
  induction gs with
  | nil =>
    intro done Ms h
    simp only [MaLearner.buildMacros, Except.ok.injEq] at h
    rw [h]; simp
  | cons g gs ih =>
    intro done Ms h
    simp only [MaLearner.buildMacros, Bind.bind, Except.bind] at h
    split at h
    · simp at h
    · rename_i M0 hM0
      rw [ih _ _ h, List.map_append, List.map_singleton, buildMacro_acts hM0]
      simp

/-- **C54, which macros.** Macros are built exactly for the unions of the sets of actions that could not be told apart: for every
nonempty collection of such sets there is a macro of all their actions, and every macro is of this kind. -/
theorem C54_macro_groups (hsort : ∀ s x, x ∈ sortG s ↔ x ∈ s) {Ms : List MacroAct}
    (h : L.buildMacros ord gord sortG uuid [] L.actionGroups = .ok Ms) (S : Finset String) :
    (∃ M ∈ Ms, M.acts.toFinset = S) ↔ ∃ C : Finset (Finset String), C.Nonempty ∧ (∀ b ∈ C, Unresolved L b) ∧ S = C.biUnion id := by
  have hacts := buildMacros_acts _ _ _ h
  rw [List.map_nil, List.nil_append] at hacts
  have h1 : (∃ M ∈ Ms, M.acts.toFinset = S) ↔ S ∈ L.actionGroups := by
    have : (∃ M ∈ Ms, M.acts.toFinset = S) ↔ S ∈ (Ms.map (·.acts)).map List.toFinset := by simp
    rw [this, hacts, List.map_map]
    have hid : ∀ g, (List.toFinset ∘ sortG) g = g := fun g => by ext x; simp [hsort]
    rw [show List.map (List.toFinset ∘ sortG) L.actionGroups = L.actionGroups from
      (List.map_congr_left (fun g _ => hid g)).trans (List.map_id _)]
  rw [h1]
  unfold MaLearner.actionGroups
  rw [mem_supersetsOf]
  have hb : ∀ b, b ∈ (L.cnfs.flatMap (·.clauses)).foldl (fun gs c =>
        if c.length > 1 ∧ ∃ p ∈ c, p.1 ∈ L.unsafeActs then
          let g := (L.base.dom.names.filter fun a => decide (a ∈ c.map Prod.fst)).toFinset
          if g ∈ gs then gs else gs ++ [g]
        else gs) [] ↔ Unresolved L b := by
    intro b
    rw [baseGroups_mem]
    simp only [List.not_mem_nil, false_or, List.mem_flatMap]
    unfold Unresolved
    constructor
    · rintro ⟨c, ⟨F, hF, hc⟩, k⟩; exact ⟨F, hF, c, hc, k⟩
    · rintro ⟨F, hF, c, hc, k⟩; exact ⟨c, ⟨F, hF, hc⟩, k⟩
  simp only [hb]

theorem buildMacro_name {u : String} {others acts : List String} {M : MacroAct} (h : L.buildMacro ord gord u others acts = .ok M) :
    M.name = macroName acts others u ∧ M.acts = acts := by
  refine ⟨?_, buildMacro_acts h⟩
  unfold MaLearner.buildMacro at h
  simp only [Bind.bind, Except.bind] at h
  split at h
  · simp at h
  split at h
  · simp at h
  split at h
  · simp at h
  simp only [Except.ok.injEq] at h
  rw [← h]

/-- **C54, names.** The i-th macro is called by the names of its actions joined with hyphens, extended by a fresh identifier if an
earlier macro has that name. As long as the identifiers are fresh, no two macros get the same name. -/
theorem C54_macro_names {Ms : List MacroAct} {gs : List (Finset String)} (h : L.buildMacros ord gord sortG uuid [] gs = .ok Ms) :
    (∀ i (hi : i < Ms.length),
      Ms[i].name = if "-".intercalate Ms[i].acts ∈ (Ms.take i).map (·.name) then "-".intercalate Ms[i].acts ++ "---" ++ uuid i
        else "-".intercalate Ms[i].acts) ∧
    ((∀ i (hi : i < Ms.length), "-".intercalate Ms[i].acts ++ "---" ++ uuid i ∉ (Ms.take i).map (·.name)) → (Ms.map (·.name)).Nodup) := by
  have key : ∀ (gs : List (Finset String)) (done Ms : List MacroAct), L.buildMacros ord gord sortG uuid done gs = .ok Ms →
      done <+: Ms ∧ ∀ i (hi : i < Ms.length), done.length ≤ i →
        Ms[i].name = macroName Ms[i].acts ((Ms.take i).map (·.name)) (uuid i) := by
    intro gs
    induction gs with
    | nil =>
      intro done Ms h
      simp only [MaLearner.buildMacros, Except.ok.injEq] at h
      subst h
      exact ⟨List.prefix_refl _, fun i hi hle => by omega⟩
    | cons g gs ih =>
      intro done Ms h
      simp only [MaLearner.buildMacros, Bind.bind, Except.bind] at h
      split at h
      · simp at h
      · rename_i M0 hM0
        obtain ⟨k1, k2⟩ := ih _ _ h
        refine ⟨(List.prefix_append _ _).trans k1, fun i hi hle => ?_⟩
        by_cases hd : (done ++ [M0]).length ≤ i
        · exact k2 i hi hd
        · have hi' : i = done.length := by rw [List.length_append, List.length_singleton] at hd; omega
          obtain ⟨t, ht⟩ := k1
          have e1 : Ms[i] = M0 := by
            subst hi'
            have : Ms[done.length]? = some M0 := by
              rw [← ht, List.append_assoc, List.getElem?_append_right (le_refl _)]; simp
            rw [List.getElem?_eq_getElem hi] at this
            exact Option.some.inj this
          have e2 : Ms.take i = done := by subst hi'; rw [← ht, List.append_assoc]; simp
          rw [e1, e2, hi']
          obtain ⟨n1, n2⟩ := buildMacro_name hM0
          rw [n1, n2]
  obtain ⟨_, k⟩ := key gs [] Ms h
  have k' : ∀ i (hi : i < Ms.length), Ms[i].name = if "-".intercalate Ms[i].acts ∈ (Ms.take i).map (·.name) then
      "-".intercalate Ms[i].acts ++ "---" ++ uuid i else "-".intercalate Ms[i].acts := by
    intro i hi
    rw [k i hi (Nat.zero_le _)]
    unfold macroName
    dsimp only
    split_ifs <;> rfl
  refine ⟨k', fun hfresh => ?_⟩
  rw [List.Nodup, List.pairwise_iff_getElem]
  intro i j hi hj hij
  rw [List.length_map] at hi hj
  rw [List.getElem_map, List.getElem_map]
  have hin : Ms[i].name ∈ (Ms.take j).map (·.name) :=
    List.mem_map.mpr ⟨Ms[i], List.mem_take_iff_getElem.mpr ⟨i, by omega, rfl⟩, rfl⟩
  intro e
  rw [e, k' j hj] at hin
  split_ifs at hin with hc
  · exact hfresh j hj hin
  · exact hc hin

theorem store_lists (Ms : List MacroAct) (K : MaLearner) : (Ms.foldl MaLearner.store K).base.safe = K.base.safe ++ Ms.map (·.name) ∧
    (Ms.foldl MaLearner.store K).base.observed = K.base.observed ++ Ms.map (·.name) := by
  induction Ms generalizing K with
  | nil => simp
  | cons M Ms ih =>
    obtain ⟨h1, h2⟩ := ih (K.store M)
    rw [List.foldl_cons, h1, h2]
    unfold MaLearner.store
    simp

theorem lookup_foldl_skip {κ β : Type} [DecidableEq κ] (l d : List (κ × β)) (k : κ) (h : k ∉ l.map Prod.fst) :
    (l.foldl (fun d p => Py.dictSet d p.1 p.2) d).lookup k = d.lookup k := by
  induction l generalizing d with
  | nil => rfl
  | cons p l ih =>
    rw [List.map_cons, List.mem_cons, not_or] at h
    rw [List.foldl_cons, ih _ h.2, Py.lookup_dictSet, if_neg h.1]

theorem lookup_foldl_const {κ β : Type} [DecidableEq κ] (l : List κ) (v : β) (d : List (κ × β)) (k : κ) (h : k ∈ l ∨ d.lookup k = some v) :
    ((l.map (·, v)).foldl (fun d p => Py.dictSet d p.1 p.2) d).lookup k = some v := by
  induction l generalizing d with
  | nil => exact h.resolve_left (by simp)
  | cons x l ih =>
    rw [List.map_cons, List.foldl_cons]
    apply ih
    by_cases hx : k = x
    · right; rw [hx, Py.lookup_dictSet, if_pos rfl]
    · rcases h with h | h
      · exact Or.inl ((List.mem_cons.mp h).resolve_left hx)
      · right; rw [Py.lookup_dictSet, if_neg hx, h]

/-- **C54, report.** Every macro is reported as learned (`OK`), on any data on which MA-SAM+ terminates normally. -/
theorem C54_macros_reported {obs : List (List JointComponent)} {L' : MaLearner} {rep : List (String × Status)} {Ms : List MacroAct}
    (h : L.learnPlus ord gord sortG uuid obs = .ok (L', rep, Ms)) {M : MacroAct} (hM : M ∈ Ms) : rep.lookup M.name = some .ok := by
  unfold MaLearner.learnPlus at h
  simp only [Bind.bind, Except.bind] at h
  split at h
  · simp at h
  rename_i L1 hL1
  split at h
  · simp at h
  rename_i Ms' hMs
  simp only [Except.ok.injEq, Prod.mk.injEq] at h
  obtain ⟨-, hrep, rfl⟩ := h
  rw [← hrep]
  obtain ⟨s1, s2⟩ := store_lists Ms' L1.constructKeep
  have hpol : ∀ B : Learner, B.applyPolicy.safe = B.safe ∧ B.applyPolicy.observed = B.observed := by
    intro B; unfold Learner.applyPolicy; split
    · exact ⟨rfl, rfl⟩
    · exact ⟨rfl, rfl⟩
  have e1 : (Ms'.foldl MaLearner.store L1.constructKeep).removeUnsafe.base.applyPolicy.safe = L1.constructKeep.base.safe ++ Ms'.map (·.name) := by
    rw [(hpol _).1]; exact s1
  have e2 : (Ms'.foldl MaLearner.store L1.constructKeep).removeUnsafe.base.applyPolicy.observed = L1.constructKeep.base.observed ++ Ms'.map (·.name) := by
    rw [(hpol _).2]; exact s2
  unfold Learner.report Py.dictOf
  dsimp only
  rw [e1, e2]
  have hin : M.name ∈ Ms'.map (·.name) := List.mem_map_of_mem hM
  rw [List.foldl_append, List.foldl_append, lookup_foldl_skip, lookup_foldl_skip]
  · exact lookup_foldl_const _ _ _ _ (Or.inl (List.mem_append_right _ hin))
  · intro hk
    rw [List.map_map] at hk
    obtain ⟨x, hx, rfl⟩ := List.mem_map.mp hk
    have := (List.mem_filter.mp hx).2
    simp only [decide_eq_true_eq, Finset.mem_sdiff, List.mem_toFinset] at this
    exact this.2 (List.mem_append_right _ hin)
  · intro hk
    rw [List.map_map] at hk
    obtain ⟨x, hx, rfl⟩ := List.mem_map.mp hk
    have := (List.mem_filter.mp hx).2
    simp only [decide_eq_true_eq, Finset.mem_sdiff, List.mem_toFinset] at this
    exact this.2 (List.mem_append_right _ hin)

end
open PlusLimits MaLimits Limits

/-- The macro of the example in `Props/MacroSafe.lean` is reported. -/
example : ∃ rep, ((runPlus (ordOf univ) keys1 (dom2 pq [] xy xyB) obs1).map fun r => r.2.1) = some rep ∧ rep.lookup "a-b" = some .ok :=
  ⟨_, rfl, by decide +kernel⟩

end Props
