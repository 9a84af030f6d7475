import Verif.Lemmas.Macro

/-! C38, C39: parameter groups and macro actions. -/
namespace Props
open Model Spec

/-- **C38.** Combining groups fails exactly when one of them is empty; otherwise the result is a partition of the elements, and two
elements are in the same part exactly when a chain of overlapping groups links them. -/
theorem C38_components {α : Type} [DecidableEq α] (groups : List (List α)) :
    ([] ∈ groups → combineGroupings groups = .error .stopIteration) ∧
    ([] ∉ groups → ∃ cs, combineGroupings groups = .ok cs ∧ cs.Pairwise Disjoint ∧ (∀ C ∈ cs, C.Nonempty) ∧
      (∀ x, (∃ C ∈ cs, x ∈ C) ↔ ∃ g ∈ groups, x ∈ g) ∧ ∀ C ∈ cs, ∀ x ∈ C, ∀ y, y ∈ C ↔ Linked groups x y) := by
  have h0 : GraphOf (⟨[], []⟩ : Graph α) [] :=
    ⟨⟨by simp, by simp⟩, by simp, by simp [Graph.Adj], by simp [Together]⟩
  obtain ⟨i1, i2, i3⟩ := h0.addAll groups
  refine ⟨fun h => ?_, fun h => ?_⟩
  · unfold combineGroupings; rw [i3 h]; rfl
  · obtain ⟨G, hG⟩ := i2.mpr h
    have hGo : GraphOf G groups := i1 G hG
    obtain ⟨c1, c2, c3, c4⟩ := components_spec hGo.wf
    refine ⟨G.components, by unfold combineGroupings; rw [hG]; rfl, c1, c3, fun x => (c2 x).symm.trans (hGo.nodes x), ?_⟩
    intro C hC x hx y
    rw [c4 C hC x hx y]
    constructor
    · intro h
      induction h with
      | refl => exact Relation.ReflTransGen.refl
      | tail _ hab ih => exact ih.tail (hGo.sound _ _ hab)
    · intro h
      induction h with
      | refl => exact Relation.ReflTransGen.refl
      | tail _ hab ih =>
        rcases hGo.complete _ _ hab with e | e
        · exact e ▸ ih
        · exact ih.tail e

/-- An association list with distinct keys is determined by its keys and its lookups. -/
theorem assoc_eq (m : Binding) (h : (m.map Prod.fst).Nodup) : m = (m.map Prod.fst).map fun k => (k, (m.lookup k).getD "") := by
  induction m with
  | nil => rfl
  | cons p m ih =>
    obtain ⟨k, v⟩ := p
    rw [List.map_cons, List.nodup_cons] at h
    rw [List.map_cons, List.map_cons, List.lookup_cons]
    simp only [beq_self_eq_true, Option.getD_some, List.cons.injEq, true_and]
    refine (ih h.2).trans (List.map_congr_left fun k' hk' => ?_)
    have hne : (k' == k) = false := by
      rw [beq_eq_false_iff_ne]; rintro rfl; exact h.1 hk'
    rw [List.lookup_cons, hne]

theorem zip_lookup_some {names objs : List String} (hlen : objs.length = names.length) {y : String} (hy : y ∈ names) :
    (names.zip objs).lookup y = some (subst names objs y) := by
  unfold subst
  cases h : (names.zip objs).lookup y with
  | some z => rfl
  | none =>
    rw [Py.lookup_none_iff] at h
    exact absurd (by rw [List.map_fst_zip (by omega)]; exact hy) h

section
variable {acts : List MicroAct} {groups : List (List (String × String))}

/-- The macro parameter that stands for a parameter of an action. -/
def target (groups : List (List (String × String))) (acts : List MicroAct) (a x : String) : String :=
  ((macroMapping groups acts).lookup (a, x)).getD ""

/-- The parameters of the macro, in order. -/
def macroParams (groups : List (List (String × String))) (acts : List MicroAct) : List String :=
  Sig.names (macroSignature acts (macroMapping groups acts))

theorem target_some (ha : GoodActs acts) (hd : groups.Pairwise fun a b => ∀ x ∈ a, x ∉ b) (hk : ∀ g ∈ groups, ∀ p ∈ g, p ∈ microKeys acts)
    {p : String × String} (hp : p ∈ microKeys acts) : (macroMapping groups acts).lookup p = some (target groups acts p.1 p.2) := by
  cases h : (macroMapping groups acts).lookup p with
  | some z => simp [target, h]
  | none => rw [Py.lookup_none_iff, mapping_keys ha hd hk] at h; exact absurd hp h

theorem target_mem (ha : GoodActs acts) (hd : groups.Pairwise fun a b => ∀ x ∈ a, x ∉ b) (hk : ∀ g ∈ groups, ∀ p ∈ g, p ∈ microKeys acts)
    {p : String × String} (hp : p ∈ microKeys acts) : target groups acts p.1 p.2 ∈ macroParams groups acts :=
  ((macroSignature_names ha _).2 _).mpr ⟨p, hp, target_some ha hd hk hp⟩

/-- **C39, binding.** The parameters of the macro are pairwise different and are exactly the targets of the parameters of its actions;
the elements of one group have one target. -/
theorem C39_binding (ha : GoodActs acts) (hd : groups.Pairwise fun a b => ∀ x ∈ a, x ∉ b) (hk : ∀ g ∈ groups, ∀ p ∈ g, p ∈ microKeys acts) :
    (macroParams groups acts).Nodup ∧
    (∀ y, y ∈ macroParams groups acts ↔ ∃ a ∈ acts, ∃ x ∈ Sig.names a.2, target groups acts a.1 x = y) ∧
    ∀ g ∈ groups, ∀ p ∈ g, ∀ q ∈ g, target groups acts p.1 p.2 = target groups acts q.1 q.2 := by
  obtain ⟨h1, h2⟩ := macroSignature_names ha (macroMapping groups acts)
  refine ⟨h1, fun y => ?_, fun g hg p hp q hq => ?_⟩
  · unfold macroParams
    rw [h2]
    constructor
    · rintro ⟨k, hkm, hl⟩
      obtain ⟨a, haa, e, hx⟩ := mem_microKeys.mp hkm
      rw [target_some ha hd hk hkm, Option.some.injEq] at hl
      exact ⟨a, haa, k.2, hx, by rw [e]; exact hl⟩
    · rintro ⟨a, haa, x, hx, rfl⟩
      have hkm : (a.1, x) ∈ microKeys acts := mem_microKeys.mpr ⟨a, haa, rfl, hx⟩
      exact ⟨_, hkm, target_some ha hd hk hkm⟩
  · unfold target; rw [mapping_group hd hg hp hq]

theorem microArgs_eq (ha : GoodActs acts) (hd : groups.Pairwise fun a b => ∀ x ∈ a, x ∉ b)
    (hk : ∀ g ∈ groups, ∀ p ∈ g, p ∈ microKeys acts) {objs : List String} (hlen : objs.length = (macroParams groups acts).length)
    {a : MicroAct} (haa : a ∈ acts) :
    microArgs (macroParams groups acts, macroMapping groups acts) objs a.1 =
      (Sig.names a.2).map fun x => subst (macroParams groups acts) objs (target groups acts a.1 x) := by
  unfold microArgs
  have hkeys := mapping_keys ha hd hk
  have hm := assoc_eq (macroMapping groups acts) (by rw [hkeys]; exact microKeys_nodup ha)
  rw [hkeys] at hm
  dsimp only
  rw [hm, List.filterMap_map]
  unfold microKeys
  rw [List.filterMap_flatMap]
  have hblock : ∀ b ∈ acts, ((Sig.names b.2).map (b.1, ·)).filterMap
      ((fun kv : (String × String) × String => if kv.1.1 = a.1 then paramObject (macroParams groups acts) objs kv.2 else none) ∘
        fun k => (k, ((macroMapping groups acts).lookup k).getD "")) =
      if b = a then (Sig.names a.2).map fun x => subst (macroParams groups acts) objs (target groups acts a.1 x) else [] := by
    intro b hb
    rw [List.filterMap_map]
    by_cases e : b = a
    · subst e
      rw [if_pos rfl, ← List.filterMap_eq_map]
      refine List.filterMap_congr fun x hx => ?_
      simp only [Function.comp, if_true]
      unfold paramObject
      exact zip_lookup_some hlen (target_mem ha hd hk (p := (b.1, x)) (mem_microKeys.mpr ⟨b, hb, rfl, hx⟩))
    · rw [if_neg e, List.filterMap_eq_nil_iff]
      intro x _
      have hne : b.1 ≠ a.1 := fun h => e (List.inj_on_of_nodup_map ha.names hb haa h)
      simp [hne]
  rw [List.flatMap_def, List.map_congr_left hblock]
  have hnd : acts.Nodup := List.Nodup.of_map _ ha.names
  clear hblock hm hkeys hk hd hlen ha
  generalize ((Sig.names a.2).map fun x => subst (macroParams groups acts) objs (target groups acts a.1 x)) = out
  induction acts with
  | nil => simp at haa
  | cons b l ih =>
    rw [List.map_cons, List.flatten_cons]
    rw [List.nodup_cons] at hnd
    rcases List.mem_cons.mp haa with rfl | h
    · rw [if_pos rfl]
      have : (l.map fun b => if b = a then out else []).flatten = [] := by
        rw [List.flatten_eq_nil_iff]
        intro x hx
        obtain ⟨c, hc, rfl⟩ := List.mem_map.mp hx
        have hca : c ≠ a := by rintro rfl; exact hnd.1 hc
        rw [if_neg hca]
      rw [this, List.append_nil]
    · have hba : b ≠ a := by rintro rfl; exact hnd.1 h
      rw [if_neg hba, List.nil_append, ih h hnd.2]

/-- **C39, decoding.** A line of a plan that calls a macro with as many objects as it has parameters is replaced by one call for each of
its actions that has parameters, in which every parameter gets the object of its macro parameter, in the order of the action's
signature. Lines that call something else are kept. -/
theorem C39_decode (ha : GoodActs acts) (hd : groups.Pairwise fun a b => ∀ x ∈ a, x ∉ b) (hk : ∀ g ∈ groups, ∀ p ∈ g, p ∈ microKeys acts)
    {mapper : List (String × Mapping)} {name : String} {objs : List String} (hn : Token name) (ho : ∀ o ∈ objs, Token o) :
    (mapper.lookup name = none → extractMicro (showCall name objs) mapper = .ok {showCall name objs}) ∧
    (mapper.lookup name = some (macroParams groups acts, macroMapping groups acts) → objs.length = (macroParams groups acts).length →
      extractMicro (showCall name objs) mapper = .ok ((acts.filter fun a => decide (a.2 ≠ [])).map fun a =>
        showCall a.1 ((Sig.names a.2).map fun x => subst (macroParams groups acts) objs (target groups acts a.1 x))).toFinset) := by
  unfold extractMicro
  rw [tokenize_showCall hn ho]
  refine ⟨fun h => by simp only [h], fun h hlen => ?_⟩
  simp only [h, Except.ok.injEq]
  ext s
  simp only [Finset.mem_image, List.mem_toFinset, List.mem_map, List.mem_filter, decide_eq_true_eq]
  constructor
  · rintro ⟨n, ⟨kv, hkv, rfl⟩, rfl⟩
    have hmem : kv.1 ∈ microKeys acts := by
      rw [← mapping_keys ha hd hk]; exact List.mem_map_of_mem hkv
    obtain ⟨a, haa, e, hx⟩ := mem_microKeys.mp hmem
    refine ⟨a, ⟨haa, fun h => by simp [h, Sig.names] at hx⟩, ?_⟩
    rw [← e, microArgs_eq ha hd hk hlen haa]
  · rintro ⟨a, ⟨haa, hne⟩, rfl⟩
    refine ⟨a.1, ?_, by rw [microArgs_eq ha hd hk hlen haa]⟩
    obtain ⟨p, hp⟩ := List.exists_mem_of_ne_nil _ hne
    have hmem : (a.1, p.1) ∈ (macroMapping groups acts).map Prod.fst := by
      rw [mapping_keys ha hd hk]; exact mem_microKeys.mpr ⟨a, haa, rfl, List.mem_map_of_mem hp⟩
    obtain ⟨kv, hkv, e⟩ := List.mem_map.mp hmem
    exact ⟨kv, hkv, by rw [e]⟩

/-- The types that occur in the signatures of the actions. -/
def paramTypes (acts : List MicroAct) : List PType := acts.flatMap fun a => a.2.map Prod.snd

/-- **C39, types.** If the subtype relation is transitive on the types of the actions and any two types of parameters with one target are comparable, the macro parameter has a type that is a subtype of
all of them, so that every object of the macro call has the type its action needs. -/
theorem C39_types (ha : GoodActs acts) (m : Binding) {y : String}
    (hcomp : ∀ a ∈ acts, ∀ p ∈ a.2, ∀ b ∈ acts, ∀ q ∈ b.2, m.lookup (a.1, p.1) = some y → m.lookup (b.1, q.1) = some y →
      p.2.isSub q.2 = true ∨ q.2.isSub p.2 = true)
    (htrans : ∀ t ∈ paramTypes acts, ∀ u ∈ paramTypes acts, ∀ v ∈ paramTypes acts,
      t.isSub u = true → u.isSub v = true → t.isSub v = true) :
    ∀ a ∈ acts, ∀ p ∈ a.2, m.lookup (a.1, p.1) = some y →
      ∃ t, (macroSignature acts m).lookup y = some t ∧ t.isSub p.2 = true := by
  have key : ∀ (l : List ((String × String) × PType)) (sig : Sig) (done : List PType),
      (∀ kt ∈ l, m.lookup kt.1 = some y → ∀ u ∈ done ++ (l.filter fun kt => m.lookup kt.1 = some y).map Prod.snd,
        kt.2.isSub u = true ∨ u.isSub kt.2 = true) →
      (∀ u ∈ done ++ l.map Prod.snd, u ∈ paramTypes acts) →
      (sig.lookup y = none ∧ done = [] ∨ ∃ t ∈ done, sig.lookup y = some t ∧ ∀ u ∈ done, t.isSub u = true) →
      let r := l.foldl (fun sig kt => match m.lookup kt.1 with
        | none => sig
        | some x => match sig.lookup x with
          | none => Py.dictSet sig x kt.2
          | some t => Py.dictSet sig x (returnSub kt.2 t)) sig
      ∀ u ∈ done ++ (l.filter fun kt => m.lookup kt.1 = some y).map Prod.snd, ∃ t, r.lookup y = some t ∧ t.isSub u = true := by
    intro l
    induction l with
    | nil =>
      intro sig done _ _ h
      rcases h with ⟨_, rfl⟩ | ⟨t, _, h1, h2⟩
      · simp
      · intro r u hu
        exact ⟨t, h1, h2 u (by simpa using hu)⟩
    | cons kt l ih =>
      intro sig done hc hT h
      have hcl : ∀ k ∈ l, m.lookup k.1 = some y → ∀ u ∈ done ++ ((kt :: l).filter fun kt => m.lookup kt.1 = some y).map Prod.snd,
          k.2.isSub u = true ∨ u.isSub k.2 = true := fun k hk => hc k (List.mem_cons_of_mem _ hk)
      dsimp only
      rw [List.foldl_cons]
      by_cases hm : m.lookup kt.1 = some y
      · have hfil : ((kt :: l).filter fun kt => m.lookup kt.1 = some y).map Prod.snd = kt.2 :: (l.filter fun kt => m.lookup kt.1 = some y).map Prod.snd := by
          rw [List.filter_cons, if_pos (by simpa using hm), List.map_cons]
        rw [hfil] at hcl ⊢
        have hself : kt.2.isSub kt.2 = true := by simp [PType.isSub]
        have hgoal : ∀ sig' : Sig, (∃ t ∈ done ++ [kt.2], sig'.lookup y = some t ∧ ∀ u ∈ done ++ [kt.2], t.isSub u = true) →
            ∀ u ∈ done ++ kt.2 :: (l.filter fun kt => m.lookup kt.1 = some y).map Prod.snd,
              ∃ t, (l.foldl (fun (sig : Sig) (kt : (String × String) × PType) => match m.lookup kt.1 with
                | none => sig
                | some x => match sig.lookup x with
                  | none => Py.dictSet sig x kt.2
                  | some t => Py.dictSet sig x (returnSub kt.2 t)) sig').lookup y = some t ∧ t.isSub u = true := by
          intro sig' hs' u hu
          exact ih sig' (done ++ [kt.2]) (by simpa using hcl) (by simpa using hT) (Or.inr hs') u (by simpa using hu)
        simp only [hm]
        rcases h with ⟨h1, rfl⟩ | ⟨t, ht, h1, h2⟩
        · simp only [h1]
          exact hgoal _ ⟨kt.2, by simp, by rw [Py.lookup_dictSet, if_pos rfl], by simpa using hself⟩
        · simp only [h1]
          have hlook : ∀ t', (Py.dictSet sig y t').lookup y = some t' := fun t' => by rw [Py.lookup_dictSet, if_pos rfl]
          refine hgoal _ ⟨returnSub kt.2 t, ?_, hlook _, ?_⟩
          · unfold returnSub; split
            · simp
            · simp [ht]
          · unfold returnSub
            intro u hu
            split
            · rename_i hsub
              rcases List.mem_append.mp hu with hu | hu
              · exact htrans _ (hT _ (by simp)) _ (hT _ (by simp [ht])) _ (hT _ (by simp [hu])) hsub (h2 u hu)
              · rw [List.mem_singleton.mp hu]; exact hself
            · rename_i hsub
              rcases List.mem_append.mp hu with hu | hu
              · exact h2 u hu
              · rw [List.mem_singleton.mp hu]
                exact (hc kt List.mem_cons_self hm t (by simp [ht])).resolve_left hsub
      · have hfil : (kt :: l).filter (fun kt => m.lookup kt.1 = some y) = l.filter fun kt => m.lookup kt.1 = some y := by
          rw [List.filter_cons, if_neg (by simpa using hm)]
        rw [hfil] at hcl ⊢
        refine ih _ done hcl (fun u hu => hT u ?_) ?_
        · rcases List.mem_append.mp hu with k | k
          · exact List.mem_append.mpr (Or.inl k)
          · exact List.mem_append.mpr (Or.inr (by rw [List.map_cons]; exact List.mem_cons_of_mem _ k))
        have hsame : (match m.lookup kt.1 with
          | none => sig
          | some x => match sig.lookup x with
            | none => Py.dictSet sig x kt.2
            | some t => Py.dictSet sig x (returnSub kt.2 t)).lookup y = sig.lookup y := by
          cases hk : m.lookup kt.1 with
          | none => rfl
          | some x =>
            have hxy : y ≠ x := by rintro rfl; exact hm hk
            dsimp only
            split
            · rw [Py.lookup_dictSet, if_neg hxy]
            · rw [Py.lookup_dictSet, if_neg hxy]
        rw [hsame]; exact h
  obtain ⟨e1, e2⟩ := allParams_eq ha
  have hmemAll : ∀ kt ∈ allParams acts, ∃ a ∈ acts, ∃ p ∈ a.2, kt = ((a.1, p.1), p.2) := by
    intro kt hkt
    rw [e1] at hkt
    obtain ⟨a, haa, h⟩ := List.mem_flatMap.mp hkt
    obtain ⟨p, hp, rfl⟩ := List.mem_map.mp h
    exact ⟨a, haa, p, hp, rfl⟩
  intro a haa p hp hy
  refine key (allParams acts) [] [] ?_ ?_ (Or.inl ⟨rfl, rfl⟩) p.2 ?_
  · intro kt hkt hm u hu
    obtain ⟨a, haa, p, hp, rfl⟩ := hmemAll kt hkt
    rw [List.nil_append] at hu
    obtain ⟨kt', hkt', rfl⟩ := List.mem_map.mp hu
    rw [List.mem_filter, decide_eq_true_eq] at hkt'
    obtain ⟨b, hb, q, hq, rfl⟩ := hmemAll kt' hkt'.1
    exact hcomp a haa p hp b hb q hq hm hkt'.2
  · intro u hu
    rw [List.nil_append] at hu
    obtain ⟨kt, hkt, rfl⟩ := List.mem_map.mp hu
    obtain ⟨a, haa, p, hp, rfl⟩ := hmemAll kt hkt
    exact List.mem_flatMap.mpr ⟨a, haa, List.mem_map.mpr ⟨p, hp, rfl⟩⟩
  · rw [List.nil_append]
    refine List.mem_map.mpr ⟨((a.1, p.1), p.2), List.mem_filter.mpr ⟨?_, by simpa using hy⟩, rfl⟩
    rw [e1]
    exact List.mem_flatMap.mpr ⟨a, haa, List.mem_map.mpr ⟨p, hp, rfl⟩⟩

end

/-! ### Examples and limits -/

private def obj : PType := ⟨"object", []⟩
private def car : PType := ⟨"car", ["object"]⟩
private def box : PType := ⟨"box", ["object"]⟩
private def lift2 : List MicroAct := [("drive", [("?c", car), ("?x", obj)]), ("load", [("?b", box), ("?y", obj)])]

example : GoodActs lift2 := ⟨by decide +kernel, by decide +kernel⟩

/-- The hypotheses of `C39_types` are met: `?c` of type car and `?o` of type object become one macro
parameter of type car. -/
example :
    let acts : List MicroAct := [("drive", [("?c", car), ("?x", obj)]), ("paint", [("?o", obj)])]
    let m := macroMapping [[("drive", "?c"), ("paint", "?o")]] acts
    GoodActs acts ∧
    (∀ a ∈ acts, ∀ p ∈ a.2, ∀ b ∈ acts, ∀ q ∈ b.2, m.lookup (a.1, p.1) = some "?co" → m.lookup (b.1, q.1) = some "?co" →
      p.2.isSub q.2 = true ∨ q.2.isSub p.2 = true) ∧
    (∀ t ∈ paramTypes acts, ∀ u ∈ paramTypes acts, ∀ v ∈ paramTypes acts,
      t.isSub u = true → u.isSub v = true → t.isSub v = true) ∧
    m.lookup ("paint", "?o") = some "?co" ∧ (macroSignature acts m).lookup "?co" = some car :=
  ⟨⟨by decide +kernel, by decide +kernel⟩, by decide +kernel, by decide +kernel, by decide +kernel, by decide +kernel⟩
example : (combineGroupings [["a", "b"], ["c"], ["b", "d"], ["e", "f"]]).toOption = some [{"a", "b", "d"}, {"c"}, {"e", "f"}] := by decide +kernel
example : macroParams [[("drive", "?x"), ("load", "?y")]] lift2 = ["?c_0", "?xy", "?b_1"] := by decide +kernel
example : extractMicro "(drive-load c1 l1 b1)" [("drive-load", (["?c_0", "?xy", "?b_1"], macroMapping [[("drive", "?x"), ("load", "?y")]] lift2))] =
    .ok {"(drive c1 l1)", "(load b1 l1)"} := by decide +kernel
example : "(drive-load c1 l1 b1)" = showCall "drive-load" ["c1", "l1", "b1"] ∧ Token "drive-load" ∧ ∀ o ∈ ["c1", "l1", "b1"], Token o := by
  decide +kernel

/-- An action without parameters is lost when a plan is decoded (macro_actions_parser.py:129 takes the actions from the keys of the
binding). -/
theorem C39_parameterless_dropped :
    let acts : List MicroAct := [("drive", [("?c", car)]), ("wait", [])]
    extractMicro "(drive-wait c1)" [("drive-wait", (macroParams [] acts, macroMapping [] acts))] = .ok {"(drive c1)"} := by
  decide +kernel

/-- Two different groups may get the same macro parameter, which then stands for four unrelated parameters (line 108). -/
theorem C39_name_collision :
    let acts : List MicroAct := [("a", [("?x", obj), ("?y", obj)]), ("b", [("?x", obj), ("?y", obj)])]
    let groups := [[("a", "?x"), ("b", "?y")], [("a", "?y"), ("b", "?x")]]
    macroParams groups acts = ["?xy"] ∧ extractMicro "(a-b o1)" [("a-b", (macroParams groups acts, macroMapping groups acts))] =
      .ok {"(a o1 o1)", "(b o1 o1)"} := by
  decide +kernel

/-- Incomparable types: the macro parameter keeps the type of the first action, whatever the second one needs. -/
theorem C39_incomparable_types :
    let acts : List MicroAct := [("a", [("?x", car)]), ("b", [("?x", box)])]
    let m := macroMapping [[("a", "?x"), ("b", "?x")]] acts
    macroSignature acts m = [("?xx", car)] ∧ car.isSub box = false := by
  decide +kernel

end Props
