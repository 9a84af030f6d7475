import Verif.Lemmas.MacroPlans
import Verif.Props.MacroSafe
import Verif.Props.Plans

/-! C121: plans with macro actions, decoded and validated. -/
namespace Props
namespace MacroPlans
open Model Spec Spec.Plans Spec.MacroPlans Props.Plans

section
variable {D : Domain} {truth : String → Schema} {obs : List (List JointComponent)} {ord : Finset Lit → List Lit}
variable {gord : Finset (String × String) → List (String × String)} {sortG : Finset String → List String} {uuid : Nat → String}
variable {L' : MaLearner} {rep : List (String × Status)} {Ms : List MacroAct}

/-- **C121, the actions of a macro one after the other.** Let every action of the macro be applicable where the macro is called and let their
effects not contradict one another. The calls can be executed in an order exactly when no action destroys a precondition of a
later one, and then they lead to the state that executing them at once leads to. -/
theorem C121_order_iff (hT : WFTruth D truth) (hc : D.consts = []) (M : MacroAct) (objs order : List String) (hp : order.Perm M.acts)
    (hn : ∀ a ∈ M.acts, a ∈ D.names) (s s' : State) (happ : ∀ a ∈ M.acts, applicable (truth a).pre (parts M objs a) s)
    (hcon : NoConflict (jointEffects truth M.acts (parts M objs))) :
    Leads (real D truth).step s (order.map (partCall D M objs)) s' ↔
      order.Pairwise (Harmless truth (parts M objs)) ∧ s' = successor (jointEffects truth M.acts (parts M objs)) id s := by
  have h := order_iff hT hc (parts M objs) s s' order ∅ (fun a ha => hn a (hp.mem_iff.mp ha)) (fun a ha => happ a (hp.mem_iff.mp ha))
    (by rw [Finset.empty_union, joint_perm hp]; exact hcon)
  rw [succ_empty, Finset.empty_union, joint_perm hp] at h
  exact h.trans ⟨fun ⟨h1, h2, _⟩ => ⟨h2, h1⟩, fun ⟨h1, h2⟩ => ⟨h2, h1, fun _ _ _ _ => Finset.notMem_empty _⟩⟩

/-- What MA-SAM+ stores about a macro. -/
theorem macro_form (ho : GoodOrd ord) (hgord : ∀ s x, x ∈ gord s ↔ x ∈ s) (hsort : ∀ s, (sortG s).Nodup ∧ ∀ x, x ∈ sortG s ↔ x ∈ s)
    (hD : WFDomain D) (hT : WFTruth D truth) (hc : D.consts = []) (hG : GoodJointData D truth obs) (hw : PlainParams D)
    (h : (MaLearner.init D).learnPlus ord gord sortG uuid obs = .ok (L', rep, Ms)) {M : MacroAct} (hM : M ∈ Ms) :
    M.acts.Nodup ∧ (∀ a ∈ M.acts, a ∈ D.names) ∧ ∃ groups : List (List (String × String)),
      (groups.Pairwise fun a b => ∀ x ∈ a, x ∉ b) ∧ (∀ g ∈ groups, ∀ p ∈ g, p ∈ microKeys (M.acts.map fun a => (a, (D.act a).sig))) ∧
      Sig.names M.model.sig = macroParams groups (M.acts.map fun a => (a, (D.act a).sig)) ∧
      M.binding = macroMapping groups (M.acts.map fun a => (a, (D.act a).sig)) := by
  obtain ⟨L1, hK, _, hMs, _⟩ := plus_run ho hD hT hc hG h
  rcases buildMacros_mem _ _ _ hMs M hM with h1 | ⟨g, hg, u, others, h1⟩
  · simp at h1
  have hacts := buildMacro_acts h1
  have hsub : ∀ a ∈ sortG g, a ∈ D.names := by
    intro a ha
    have := actionGroups_sub hg a (((hsort g).2 a).mp ha)
    rwa [hK.static.names] at this
  rw [hacts]
  refine ⟨(hsort g).1, hsub, ?_⟩
  unfold MaLearner.buildMacro at h1
  simp only [Bind.bind, Except.bind] at h1
  split at h1
  · simp at h1
  rename_i groups hgroups
  split at h1
  · simp at h1
  split at h1
  · simp at h1
  simp only [Except.ok.injEq] at h1
  subst h1
  have hmicro : (sortG g).map (fun a => (a, (L1.constructKeep.base.dom.act a).sig)) = (sortG g).map (fun a => (a, (D.act a).sig)) :=
    List.map_congr_left fun a _ => by rw [hK.static.sig]
  dsimp only
  rw [hmicro]
  refine ⟨groups.map gord, ?_, ?_, rfl, rfl⟩
  all_goals
    unfold MaLearner.paramGrouping at hgroups
    simp only [Bind.bind, Except.bind] at hgroups
    split at hgroups
    · simp at hgroups
    rename_i gs hgs
    obtain ⟨k1, k2⟩ := Props.C38_components gs.flatten
    by_cases hmem : ([] : List (String × String)) ∈ gs.flatten
    · rw [k1 hmem] at hgroups; simp at hgroups
    obtain ⟨cs, e, d, _, hel, _⟩ := k2 hmem
    rw [e, Except.ok.injEq] at hgroups
    subst hgroups
  · rw [List.pairwise_map]
    exact d.imp fun {a b} hab x hx hx' => Finset.disjoint_left.mp hab ((hgord a x).mp hx) ((hgord b x).mp hx')
  · intro l hl p hp
    obtain ⟨C, hC, rfl⟩ := List.mem_map.mp hl
    obtain ⟨gr, hgr, hpg⟩ := (hel p).mp ⟨C, hC, (hgord C p).mp hp⟩
    obtain ⟨gl, hgl, hgrl⟩ := List.mem_flatten.mp hgr
    obtain ⟨cl, hcl, hok⟩ := (mapM_ok hgs).1 gl hgl
    rw [List.mem_filter, List.mem_flatMap] at hcl
    obtain ⟨⟨F, hF, hcF⟩, hall⟩ := hcl
    obtain ⟨pd, _, b, rfl⟩ := mem_cnfs.mp hF
    have hsh := hK.shape _ _ hcF
    simp only [List.all_eq_true, List.contains_iff_mem] at hall
    obtain ⟨q, hq, x, hx, rfl⟩ := (groupParams_spec hok (fun p hp x hx => hw _ (hsh.names p hp) x (hsh.args p hp x hx)) hsh.len).2 gr hgrl p hpg
    exact mem_microKeys.mpr ⟨(q.1, (D.act q.1).sig), List.mem_map_of_mem (hall q hq), rfl, hsh.args q hq x hx⟩

/-- What the mapping says about a name. -/
theorem mapping_lookup (hn : (Ms.map (·.name)).Nodup) (name : String) :
    (∀ M ∈ Ms, M.name = name → (mappingOf Ms).lookup name = some (Sig.names M.model.sig, M.binding)) ∧
    (name ∉ Ms.map (·.name) → (mappingOf Ms).lookup name = none) := by
  have key : ∀ (Ms : List MacroAct) (d : List (String × Mapping)), (Ms.map (·.name)).Nodup →
      (∀ M ∈ Ms, M.name = name → (Ms.foldl (fun d M => Py.dictSet d M.name (Sig.names M.model.sig, M.binding)) d).lookup name =
        some (Sig.names M.model.sig, M.binding)) ∧
      (name ∉ Ms.map (·.name) → (Ms.foldl (fun d M => Py.dictSet d M.name (Sig.names M.model.sig, M.binding)) d).lookup name = d.lookup name) := by
    intro Ms
    induction Ms with
    | nil => exact fun d _ => ⟨by simp, fun _ => rfl⟩
    | cons N Ms ih =>
      intro d hn
      rw [List.map_cons, List.nodup_cons] at hn
      obtain ⟨h1, h2⟩ := ih (Py.dictSet d N.name (Sig.names N.model.sig, N.binding)) hn.2
      rw [List.foldl_cons]
      refine ⟨fun M hM he => ?_, fun hnot => ?_⟩
      · rcases List.mem_cons.mp hM with rfl | hM
        · rw [h2 (by rw [← he]; exact hn.1), Py.lookup_dictSet, if_pos he.symm]
        · exact h1 M hM he
      · rw [List.map_cons, List.mem_cons, not_or] at hnot
        rw [h2 hnot.2, Py.lookup_dictSet, if_neg hnot.1]
  obtain ⟨h1, h2⟩ := key Ms [] hn
  exact ⟨h1, h2⟩

/-- A set that is iterated over gives each element once. -/
def Enumerates (setOrd : Finset String → List String) : Prop := ∀ s, (setOrd s).Nodup ∧ ∀ x, x ∈ setOrd s ↔ x ∈ s

/-- The calls of a plan can be written to a file and read again; a macro is called with as many objects as it has parameters. -/
structure Readable (Ms : List MacroAct) (c : Call) : Prop where
  name : Token c.name
  params : ∀ o ∈ c.params, Token o
  arity : ∀ M ∈ Ms, M.name = c.name → c.params.length = M.model.sig.length

theorem step_text (ho : GoodOrd ord) (hgord : ∀ s x, x ∈ gord s ↔ x ∈ s) (hsort : ∀ s, (sortG s).Nodup ∧ ∀ x, x ∈ sortG s ↔ x ∈ s)
    (hD : WFDomain D) (hT : WFTruth D truth) (hc : D.consts = []) (hG : GoodJointData D truth obs) (hw : PlainParams D)
    (h : (MaLearner.init D).learnPlus ord gord sortG uuid obs = .ok (L', rep, Ms)) (hn : (Ms.map (·.name)).Nodup)
    (htok : ∀ a ∈ D.names, Token a) (hsome : ∀ a ∈ D.names, (D.act a).sig ≠ [])
    {setOrd : Finset String → List String} (hset : Enumerates setOrd) {c : Call} (hr : Readable Ms c) :
    ∃ S ds, extractMicro (planLine c) (mappingOf Ms) = .ok S ∧ StandsFor D Ms c ds ∧
      (setOrd S).map (fun e => if endsLine e then e else e ++ "\n") = ds.map planLine := by
  obtain ⟨m1, m2⟩ := mapping_lookup hn c.name
  unfold extractMicro
  rw [tokenize_line hr.name hr.params]
  dsimp only
  by_cases hin : c.name ∈ Ms.map (·.name)
  · obtain ⟨M, hM, hname⟩ := List.mem_map.mp hin
    rw [m1 M hM hname]
    dsimp only
    obtain ⟨hnd, hsub, groups, hd, hk, hsig, hbind⟩ := macro_form ho hgord hsort hD hT hc hG hw h hM
    generalize hmic : M.acts.map (fun a => (a, (D.act a).sig)) = micro at hk hsig hbind
    have hgood : GoodActs micro := by
      subst hmic
      refine ⟨by rw [List.map_map]; simpa [Function.comp_def] using hnd, fun a ha => ?_⟩
      obtain ⟨b, hb, rfl⟩ := List.mem_map.mp ha
      have := hD.sigs b (hsub b hb)
      unfold WFSig at this
      rw [hc, List.append_nil] at this
      exact this
    have hlen : c.params.length = (macroParams groups micro).length := by
      rw [← hsig, hr.arity M hM hname]; simp [Sig.names]
    have hmem : ∀ a ∈ M.acts, (a, (D.act a).sig) ∈ micro := fun a ha => by subst hmic; exact List.mem_map_of_mem ha
    have hargs : ∀ a ∈ M.acts, microArgs (Sig.names M.model.sig, M.binding) c.params a = (partCall D M c.params a).params := by
      intro a ha
      rw [hsig, hbind, microArgs_eq hgood hd hk hlen (hmem a ha)]
      unfold partCall parts partSubst
      dsimp only
      rw [hsig]
      refine List.map_congr_left fun x hx => ?_
      have hkey : (a, x) ∈ microKeys micro := mem_microKeys.mpr ⟨_, hmem a ha, rfl, hx⟩
      unfold boundTo
      rw [hbind, target_some hgood hd hk hkey]
      rfl
    -- objects are tokens
    have hobj : ∀ a ∈ M.acts, ∀ o ∈ (partCall D M c.params a).params, Token o := by
      intro a ha o hmo
      unfold partCall parts partSubst at hmo
      dsimp only at hmo
      obtain ⟨x, hx, rfl⟩ := List.mem_map.mp hmo
      have hkey : (a, x) ∈ microKeys micro := mem_microKeys.mpr ⟨_, hmem a ha, rfl, hx⟩
      have htm := target_mem hgood hd hk hkey
      have hb : boundTo M.binding a x = target groups micro a x := by
        unfold boundTo
        rw [hbind, target_some hgood hd hk hkey]; rfl
      rw [hb, hsig]
      have := zip_lookup_some hlen htm
      have hm : ∀ (l : List (String × String)) (k v : String), l.lookup k = some v → (k, v) ∈ l := by
        intro l k v hl
        rw [List.lookup_eq_some_iff] at hl
        obtain ⟨l1, l2, e, _⟩ := hl
        rw [e]; simp
      have hm := hm _ _ _ this
      exact hr.params _ (List.of_mem_zip hm).2
    -- the actions that the mapping names
    have hnames : (M.binding.map fun kv => kv.1.1).toFinset = M.acts.toFinset := by
      have hkeys := mapping_keys hgood hd hk
      rw [← hbind] at hkeys
      ext a
      rw [List.mem_toFinset, List.mem_toFinset]
      have e1 : (M.binding.map fun kv => kv.1.1) = (M.binding.map Prod.fst).map Prod.fst := by rw [List.map_map]; rfl
      rw [e1, hkeys, List.mem_map]
      constructor
      · rintro ⟨k, hk', rfl⟩
        obtain ⟨b, hb, e, _⟩ := mem_microKeys.mp hk'
        subst hmic
        obtain ⟨b', hb', rfl⟩ := List.mem_map.mp hb
        rw [← e]; exact hb'
      · intro ha
        obtain ⟨x, hx⟩ := List.exists_mem_of_ne_nil _ (hsome a (hsub a ha))
        exact ⟨(a, x.1), mem_microKeys.mpr ⟨_, hmem a ha, rfl, List.mem_map_of_mem hx⟩, rfl⟩
    rw [hnames]
    refine ⟨_, ?_, rfl, ?_⟩
    · exact ((setOrd (M.acts.toFinset.image fun a => showCall a (microArgs (Sig.names M.model.sig, M.binding) c.params a))).filterMap
        fun e => (M.acts.find? fun a => showCall a (partCall D M c.params a).params == e)).map (partCall D M c.params)
    generalize hS : (M.acts.toFinset.image fun a => showCall a (microArgs (Sig.names M.model.sig, M.binding) c.params a)) = S
    have hS' : ∀ e, e ∈ setOrd S ↔ ∃ a ∈ M.acts, showCall a (partCall D M c.params a).params = e := by
      intro e
      rw [(hset S).2, ← hS, Finset.mem_image]
      simp only [List.mem_toFinset]
      exact exists_congr fun a => and_congr_right fun ha => by rw [hargs a ha]
    have hinj : ∀ a ∈ M.acts, ∀ b ∈ M.acts, showCall a (partCall D M c.params a).params = showCall b (partCall D M c.params b).params → a = b :=
      fun a ha b hb e => (showCall_injective (htok a (hsub a ha)) (htok b (hsub b hb)) (hobj a ha) (hobj b hb) e).1
    have hfind : ∀ a ∈ M.acts, (M.acts.find? fun b => showCall b (partCall D M c.params b).params == showCall a (partCall D M c.params a).params) = some a := by
      intro a ha
      cases hf : M.acts.find? fun b => showCall b (partCall D M c.params b).params == showCall a (partCall D M c.params a).params with
      | none =>
        rw [List.find?_eq_none] at hf
        exact absurd (by simp) (hf a ha)
      | some b =>
        have h1 := List.find?_some hf
        have h2 := List.mem_of_find?_eq_some hf
        rw [hinj b h2 a ha (by simpa using h1)]
    -- the order of the actions
    have key : ∀ l : List String, (∀ e ∈ l, ∃ a ∈ M.acts, showCall a (partCall D M c.params a).params = e) →
        (l.filterMap fun e => (M.acts.find? fun a => showCall a (partCall D M c.params a).params == e)).map
          (fun a => showCall a (partCall D M c.params a).params) = l ∧
        ∀ a ∈ l.filterMap fun e => (M.acts.find? fun a => showCall a (partCall D M c.params a).params == e), a ∈ M.acts := by
      intro l
      induction l with
      | nil => exact fun _ => ⟨rfl, by simp⟩
      | cons e l ih =>
        intro hl
        obtain ⟨a, ha, rfl⟩ := hl e (by simp)
        obtain ⟨i1, i2⟩ := ih fun e' he' => hl e' (by simp [he'])
        rw [List.filterMap_cons, hfind a ha]
        refine ⟨by rw [List.map_cons, i1], fun b hb => ?_⟩
        rcases List.mem_cons.mp hb with rfl | hb
        · exact ha
        · exact i2 b hb
    obtain ⟨k1, k2⟩ := key (setOrd S) fun e he => (hS' e).mp he
    generalize ((setOrd S).filterMap fun e => (M.acts.find? fun a => showCall a (partCall D M c.params a).params == e)) = order at k1 k2
    refine ⟨Or.inl ⟨M, hM, hname, order, ?_, rfl⟩, ?_⟩
    · rw [List.perm_ext_iff_of_nodup (List.Nodup.of_map _ (by rw [k1]; exact (hset S).1)) hnd]
      intro a
      refine ⟨k2 a, fun ha => ?_⟩
      have : showCall a (partCall D M c.params a).params ∈ setOrd S := (hS' _).mpr ⟨a, ha, rfl⟩
      rw [← k1] at this
      obtain ⟨b, hb, e⟩ := List.mem_map.mp this
      rw [← hinj b (k2 b hb) a ha e]; exact hb
    · rw [← k1, List.map_map, List.map_map]
      refine List.map_congr_left fun a _ => ?_
      have := endsLine_call (partCall D M c.params a)
      simp only [Function.comp_apply]
      rw [show showCall a (partCall D M c.params a).params = showCall (partCall D M c.params a).name (partCall D M c.params a).params from rfl, this]
      rfl
  · rw [m2 hin]
    dsimp only
    refine ⟨_, [c], rfl, Or.inr ⟨hin, rfl⟩, ?_⟩
    have hone : setOrd {planLine c} = [planLine c] := by
      obtain ⟨h1, h2⟩ := hset {planLine c}
      have : (setOrd {planLine c}).Perm [planLine c] := by
        rw [List.perm_ext_iff_of_nodup h1 (by simp)]
        intro x; rw [h2]; simp
      exact List.perm_singleton.mp this
    rw [hone]
    simp [endsLine_line]

/-- **C121, the decoded file.** Whatever order sets are iterated in, the file with the plan becomes a file with the decoded plan: the calls of
single actions stay, each call of a macro becomes calls of all its actions, in some order, with the objects the macro was called with. -/
theorem C121_decoded_file (ho : GoodOrd ord) (hgord : ∀ s x, x ∈ gord s ↔ x ∈ s) (hsort : ∀ s, (sortG s).Nodup ∧ ∀ x, x ∈ sortG s ↔ x ∈ s)
    (hD : WFDomain D) (hT : WFTruth D truth) (hc : D.consts = []) (hG : GoodJointData D truth obs) (hw : PlainParams D)
    (h : (MaLearner.init D).learnPlus ord gord sortG uuid obs = .ok (L', rep, Ms)) (hn : (Ms.map (·.name)).Nodup)
    (htok : ∀ a ∈ D.names, Token a) (hsome : ∀ a ∈ D.names, (D.act a).sig ≠ [])
    {setOrd : Finset String → List String} (hset : Enumerates setOrd) {plan : List Call} (hr : ∀ c ∈ plan, Readable Ms c) :
    ∃ out, Decoded D Ms plan out ∧ adaptSolution setOrd (mappingOf Ms) (plan.map planLine) = .ok (out.map planLine) := by
  induction plan with
  | nil => exact ⟨[], rfl, rfl⟩
  | cons c plan ih =>
    obtain ⟨rest, h1, h2⟩ := ih fun c' hc' => hr c' (by simp [hc'])
    obtain ⟨S, ds, e1, e2, e3⟩ := step_text ho hgord hsort hD hT hc hG hw h hn htok hsome hset (hr c (by simp))
    refine ⟨ds ++ rest, ⟨ds, rest, e2, h1, rfl⟩, ?_⟩
    unfold adaptSolution at h2 ⊢
    simp only [Bind.bind, Except.bind, List.map_cons, List.mapM_cons] at h2 ⊢
    rw [e1]
    dsimp only
    split at h2
    · simp at h2
    · rename_i l hl
      simp only [Except.ok.injEq] at h2
      simp only [Pure.pure, Except.pure, Except.ok.injEq, List.flatten_cons, List.map_append]
      rw [h2, e3]

/-- **C121, plans with macros are correct.** Let a plan solve a problem in the domain MA-SAM+ returned, with calls that are allowed. Then every
decoding of the plan solves the problem in the true domain. -/
theorem C121_plans_correct (ho : GoodOrd ord) (hgord : ∀ s x, x ∈ gord s ↔ x ∈ s) (hsort : ∀ s, (sortG s).Nodup ∧ ∀ x, x ∈ sortG s ↔ x ∈ s)
    (hD : WFDomain D) (hT : WFTruth D truth) (hc : D.consts = []) (hG : GoodJointData D truth obs) (hw : PlainParams D)
    (h : (MaLearner.init D).learnPlus ord gord sortG uuid obs = .ok (L', rep, Ms)) (hn : (Ms.map (·.name)).Nodup)
    (hfresh : ∀ M ∈ Ms, M.name ∉ D.names)
    (hshare : ∀ M ∈ Ms, ∀ a ∈ M.acts, ∀ b ∈ M.acts, a ≠ b → ∀ x ∈ Sig.names (D.act a).sig, x ∉ Sig.names (D.act b).sig)
    (hargs : ∀ a ∈ D.names, ∀ e ∈ (truth a).eff, e.args ≠ [])
    (P : Problem) {plan out : List Call} (hal : ∀ c ∈ plan, Allowed D truth Ms c) (hdec : Decoded D Ms plan out)
    (hs : (returned L'.base.dom).Solves P plan) : (real D truth).Solves P out := by
  obtain ⟨s, hl, hg⟩ := hs
  refine ⟨s, ?_, hg⟩
  clear hg
  generalize P.init = s0 at hl
  induction plan generalizing s0 out with
  | nil => cases hdec; exact hl
  | cons c plan ih =>
    obtain ⟨ds, rest, h1, h2, rfl⟩ := hdec
    obtain ⟨m, h3, h4⟩ := hl
    refine leads_append ?_ (ih (fun c' hc' => hal c' (by simp [hc'])) h2 m h4)
    have ha := hal c (by simp)
    obtain ⟨s1, s2, s3, _, s5⟩ := h3
    simp only [returned, Strips.binding] at s1 s2 s3 s5
    rcases h1 with ⟨M, hM, hname, order, hp, rfl⟩ | ⟨hnot, rfl⟩
    · obtain ⟨hnd, hsub, _⟩ := macro_form ho hgord hsort hD hT hc hG hw h hM
      have hmod := (C54_macros_returned ho hD hT hc hG h hn hM (hfresh M hM)).2
      rw [← hname, hmod] at s3 s5
      have hinj : PartsInjective D M (subst (Sig.names M.model.sig) c.params) := by
        intro a haa x hx y hy e
        exact List.inj_on_of_nodup_map (ha.distinct M hM hname a haa) hx hy e
      have hsnd := C54_macro_sound_partial ho hgord (fun s x => (hsort s).2 x) hD hT hc hG hw h hM _ s0 hinj s3
      have hex := C54_macro_exact_partial ho hgord (fun s x => (hsort s).2 x) hD hT hc hG hw h hM (hshare M hM)
        (fun a haa => hargs a (hsub a haa)) _ s0 hinj s3 (ha.consistent M hM hname)
      refine (C121_order_iff hT hc M c.params order hp hsub s0 m hsnd.2.1 (ha.consistent M hM hname)).mpr ⟨?_, ?_⟩
      · have : order.Nodup := hp.nodup_iff.mpr hnd
        exact this.pairwise_of_forall_ne fun a haa b hb hab => ha.harmless M hM hname a (hp.mem_iff.mp haa) b (hp.mem_iff.mp hb) hab
      · rw [s5, hex]; rfl
    · obtain ⟨Ls, rep', hlearn, hin, heq⟩ := C54_single_actions ho hD hT hc hG h s1 hnot
      rw [heq] at s2 s3 s5
      have hF := ma_final ho hD hT hc hG hlearn
      have hnD := hF.names _ hin
      simp only [hF.sig] at s2 s3 s5
      have hp := hT.params _ hnD
      have key := C22_returned_actions_safe_partial ho hD hT hc hG hlearn hin _ s0 s3
      refine ⟨m, ⟨hnD, by simpa [real, hp] using s2, ?_, by intro q hq; simp [real] at hq, ?_⟩, rfl⟩
      · simp only [real, Strips.binding, hp]; exact key.1
      · simp only [real, Strips.binding, hp]; rw [s5]
        exact key.2 (subst_injective (hD.sigs _ hnD) ⟨s2, ha.single hnot, by rw [hc]; simp [Sig.names]⟩)

/-- **C121, validation.** When a planner that only claims allowed plans of the returned domain is validated against the true domain on the decoded
files, no problem counts as not applicable or as goal not achieved, and ok counts every claimed plan. -/
theorem C121_validation (ho : GoodOrd ord) (hgord : ∀ s x, x ∈ gord s ↔ x ∈ s) (hsort : ∀ s, (sortG s).Nodup ∧ ∀ x, x ∈ sortG s ↔ x ∈ s)
    (hD : WFDomain D) (hT : WFTruth D truth) (hc : D.consts = []) (hG : GoodJointData D truth obs) (hw : PlainParams D)
    (h : (MaLearner.init D).learnPlus ord gord sortG uuid obs = .ok (L', rep, Ms)) (hn : (Ms.map (·.name)).Nodup)
    (htok : ∀ a ∈ D.names, Token a) (hsome : ∀ a ∈ D.names, (D.act a).sig ≠ []) (hfresh : ∀ M ∈ Ms, M.name ∉ D.names)
    (hshare : ∀ M ∈ Ms, ∀ a ∈ M.acts, ∀ b ∈ M.acts, a ≠ b → ∀ x ∈ Sig.names (D.act a).sig, x ∉ Sig.names (D.act b).sig)
    (hargs : ∀ a ∈ D.names, ∀ e ∈ (truth a).eff, e.args ≠ [])
    {setOrd : Finset String → List String} (hset : Enumerates setOrd)
    {used : Option Used} {tests : List TestCase} {r : SolvingRow} (hv : validateDomain used tests = .ok r)
    (P : TestCase → Problem) (expert : TestCase → List Call)
    (hE : ∀ t ∈ tests, Evaluated ((returned L'.base.dom).Solves (P t))
      (fun plan => ∃ out, adaptSolution setOrd (mappingOf Ms) (plan.map planLine) = .ok (out.map planLine) ∧ (real D truth).Solves (P t) out)
      (fun plan => ∀ c ∈ plan, Allowed D truth Ms c ∧ Readable Ms c) (expert t) t) :
    r.stats.count (.out .notApplicable) = 0 ∧ r.stats.count (.out .goalNotAchieved) = 0 ∧
    r.stats.count (.out .ok) = tests.countP (fun t => decide t.Solved) := by
  obtain ⟨a, b, c, _⟩ := row_of_safe (tested := fun t => (returned L'.base.dom).Solves (P t))
    (reference := fun t plan => ∃ out, adaptSolution setOrd (mappingOf Ms) (plan.map planLine) = .ok (out.map planLine) ∧ (real D truth).Solves (P t) out)
    (allowed := fun _ plan => ∀ c ∈ plan, Allowed D truth Ms c ∧ Readable Ms c)
    (fun t plan hal hs => by
      obtain ⟨out, h1, h2⟩ := C121_decoded_file ho hgord hsort hD hT hc hG hw h hn htok hsome hset fun c hc => (hal c hc).2
      exact ⟨out, h2, C121_plans_correct ho hgord hsort hD hT hc hG hw h hn hfresh hshare hargs (P t) (fun c hc => (hal c hc).1) h1 hs⟩)
    hv expert hE
  exact ⟨a, b, c⟩

/-- **C121, when decoding raises.** A file is decoded exactly when every line has a word; an empty line ends the validation with an `IndexError`. -/
theorem C121_blank_line (setOrd : Finset String → List String) (mapper : List (String × Mapping)) (lines : List String) :
    (∃ out, adaptSolution setOrd mapper lines = .ok out) ↔ ∀ line ∈ lines, ∃ c ∈ line.toList, (c.isWhitespace || c == '(' || c == ')') = false := by
  have htok : ∀ (w cur : List Char), tokenize cur w = [] ↔ cur = [] ∧ ∀ c ∈ w, (c.isWhitespace || c == '(' || c == ')') = true := by
    intro w
    induction w with
    | nil => intro cur; unfold tokenize; split_ifs with h <;> simp [h]
    | cons d w ih =>
      intro cur
      unfold tokenize
      by_cases hd : (d.isWhitespace || d == '(' || d == ')') = true
      · rw [if_pos hd]
        by_cases hcur : cur = []
        · rw [if_pos hcur, ih]; simp only [List.mem_cons, forall_eq_or_imp, hd, hcur, true_and]
        · rw [if_neg hcur]; simp [hcur]
      · rw [if_neg hd, ih]
        constructor
        · rintro ⟨h, _⟩; simp at h
        · rintro ⟨_, h⟩; exact absurd (h d (by simp)) hd
  have hone : ∀ line, (∃ S, extractMicro line mapper = .ok S) ↔ ∃ c ∈ line.toList, (c.isWhitespace || c == '(' || c == ')') = false := by
    intro line
    have h1 := htok line.toList []
    unfold extractMicro
    cases ht : tokenize [] line.toList with
    | nil =>
      have := (h1.mp ht).2
      simp only [List.map_nil, reduceCtorEq, exists_false, false_iff, not_exists, not_and]
      intro c hc; rw [this c hc]; simp
    | cons t ts =>
      have hn : ¬ ∀ c ∈ line.toList, (c.isWhitespace || c == '(' || c == ')') = true := fun hall => by
        rw [h1.mpr ⟨rfl, hall⟩] at ht; cases ht
      have hr : ∃ c ∈ line.toList, (c.isWhitespace || c == '(' || c == ')') = false := by
        by_contra hne
        refine hn fun c hc => ?_
        by_contra hcc
        exact hne ⟨c, hc, Bool.eq_false_iff.mpr hcc⟩
      simp only [hr, iff_true, List.map_cons]
      split
      · exact ⟨_, rfl⟩
      · exact ⟨_, rfl⟩
  unfold adaptSolution
  induction lines with
  | nil => exact ⟨fun _ => by simp, fun _ => ⟨[], rfl⟩⟩
  | cons line lines ih =>
    simp only [Bind.bind, Except.bind, List.mapM_cons, List.mem_cons, forall_eq_or_imp] at ih ⊢
    refine Iff.trans ?_ (and_congr (hone line) ih)
    cases extractMicro line mapper with
    | error e => simp
    | ok S =>
      simp only [Except.ok.injEq, exists_eq', true_and]
      generalize (List.mapM (m := Except Err) (β := List String) _ lines) = r
      cases r with
      | error e => exact Iff.rfl
      | ok l => exact ⟨fun _ => ⟨_, rfl⟩, fun _ => ⟨_, rfl⟩⟩

end

/-! ### Concrete cases -/
namespace Case
open PlusLimits MaLimits Limits

theorem enumOf_nodup {U : List String} (hU : U.Nodup) : Enumerates (enumOf U) := by
  intro s
  refine ⟨?_, enumOf_good U s⟩
  unfold enumOf
  split
  · exact hU.filter _
  · exact s.nodup_toList

theorem sort_ok : ∀ s, (enumOf ["a", "b"] s).Nodup ∧ ∀ x, x ∈ enumOf ["a", "b"] s ↔ x ∈ s := enumOf_nodup (by decide)

instance (D : Domain) (truth : String → Schema) (Ms : List MacroAct) (c : Call) : Decidable (Allowed D truth Ms c) :=
  decidable_of_iff ((c.name ∉ Ms.map (·.name) → c.params.Nodup) ∧
    (∀ M ∈ Ms, M.name = c.name → ∀ a ∈ M.acts, (partCall D M c.params a).params.Nodup) ∧
    (∀ M ∈ Ms, M.name = c.name → NoConflict (jointEffects truth M.acts (parts M c.params))) ∧
    (∀ M ∈ Ms, M.name = c.name → ∀ a ∈ M.acts, ∀ b ∈ M.acts, a ≠ b → Harmless truth (parts M c.params) a b))
    ⟨fun ⟨h1, h2, h3, h4⟩ => ⟨h1, h2, h3, h4⟩, fun h => ⟨h.1, h.2, h.3, h.4⟩⟩

instance (Ms : List MacroAct) (c : Call) : Decidable (Readable Ms c) :=
  decidable_of_iff (Token c.name ∧ (∀ o ∈ c.params, Token o) ∧ ∀ M ∈ Ms, M.name = c.name → c.params.length = M.model.sig.length)
    ⟨fun ⟨h1, h2, h3⟩ => ⟨h1, h2, h3⟩, fun h => ⟨h.1, h.2, h.3⟩⟩

/-- A plan that calls the macro `a-b` and then `a`. -/
def plan : List Call := [⟨"a-b", ["o4", "o5", "o6"]⟩, ⟨"a", ["o6", "o4"]⟩]

/-- The hypotheses can be met: a plan that calls a macro learned from two actions with a common object, and a single action, is allowed, solves a
problem in the returned domain and is decoded to three calls. -/
example : let D := dom2 pq [] xy xyB
    let truth := tru2' xy ∅ {Q1 "?y"} xyB ∅ ∅
    let r := runPlus (ordOf univ) keys1 D obs1
    JointProblemOK D truth obs1 ∧ goodJointB D truth obs1 = true ∧ PlainParams D ∧ r.isSome = true ∧
    (∀ a ∈ D.names, Token a) ∧ (∀ a ∈ D.names, (D.act a).sig ≠ []) ∧ (∀ a ∈ D.names, ∀ e ∈ (truth a).eff, e.args ≠ []) ∧
    ∀ r' ∈ r, (r'.2.2.map (·.name)).Nodup ∧ (∀ M ∈ r'.2.2, M.name ∉ D.names) ∧
      (∀ M ∈ r'.2.2, ∀ a ∈ M.acts, ∀ b ∈ M.acts, a ≠ b → ∀ x ∈ Sig.names (D.act a).sig, x ∉ Sig.names (D.act b).sig) ∧
      (∀ c ∈ plan, Allowed D truth r'.2.2 c) ∧ (∀ c ∈ plan, Readable r'.2.2 c) ∧
      (returned r'.1.base.dom).step ∅ ⟨"a-b", ["o4", "o5", "o6"]⟩ {A "q" ["o5"]} ∧
      (returned r'.1.base.dom).step {A "q" ["o5"]} ⟨"a", ["o6", "o4"]⟩ {A "q" ["o4"], A "q" ["o5"]} ∧
      (adaptSolution (enumOf ["(b o6 o5)", "(a o4 o5)", "(a o6 o4)\n"]) (mappingOf r'.2.2) (plan.map planLine)).toOption =
        some ["(b o6 o5)\n", "(a o4 o5)\n", "(a o6 o4)\n"] := by
  decide +kernel

/-- "a" needs `p`, which "b" deletes. -/
def obs4 : List (List JointComponent) := [[⟨{A "p" ["o1"]}, [⟨"a", ["o1"]⟩, ⟨"b", ["o1"]⟩], ∅⟩]]
def D4 : Domain := dom2 [p1] [] [("?x", o)] [("?u", o)]
def truth4 : String → Schema := tru2' [("?x", o)] {P "?x"} ∅ [("?u", o)] ∅ {P "?u" false}
def keys4 : List (String × String) := [("a", "?x"), ("b", "?u")]
def goal4 : Problem := ⟨{A "p" ["o2"]}, fun s => A "p" ["o2"] ∉ s⟩

/-- **C121, the order matters.** The actions of a macro that was learned from one joint action are written in the order in which Python iterates over a
set of strings. One and the same plan file of the returned domain is decoded to a plan that solves the problem in the true domain, or to one that does
not, depending on that order (which differs from run to run). -/
theorem C121_order_matters : ∃ (ord : Finset Lit → List Lit) (gord : Finset (String × String) → List (String × String))
    (sortG : Finset String → List String) (L' : MaLearner) (rep : List (String × Status)) (Ms : List MacroAct) (plan out1 out2 : List Call)
    (set1 set2 : Finset String → List String),
    GoodOrd ord ∧ (∀ s x, x ∈ gord s ↔ x ∈ s) ∧ (∀ s, (sortG s).Nodup ∧ ∀ x, x ∈ sortG s ↔ x ∈ s) ∧
    WFDomain D4 ∧ WFTruth D4 truth4 ∧ GoodJointData D4 truth4 obs4 ∧
    (MaLearner.init D4).learnPlus ord gord sortG (fun _ => "u") obs4 = .ok (L', rep, Ms) ∧
    (returned L'.base.dom).Solves goal4 plan ∧ Enumerates set1 ∧ Enumerates set2 ∧
    adaptSolution set1 (mappingOf Ms) (plan.map planLine) = .ok (out1.map planLine) ∧
    adaptSolution set2 (mappingOf Ms) (plan.map planLine) = .ok (out2.map planLine) ∧
    (real D4 truth4).Solves goal4 out1 ∧ ¬ (real D4 truth4).Solves goal4 out2 := by
  obtain ⟨h1, h2, h3⟩ := goodJointB_sound (D := D4) (truth := truth4) (obs := obs4) (by decide +kernel) (by decide +kernel)
  obtain ⟨⟨L', rep, Ms⟩, hr, hrun⟩ := runPlus_ok (ord := ordOf (univP ["o1", "?x", "?u"])) (keys := keys4) (D := D4) (obs := obs4) (by decide +kernel)
  have hall : ∀ r' ∈ runPlus (ordOf (univP ["o1", "?x", "?u"])) keys4 D4 obs4,
      (returned r'.1.base.dom).step {A "p" ["o2"]} ⟨"a-b", ["o2"]⟩ ∅ ∧
      (adaptSolution (enumOf ["(a o2)", "(b o2)"]) (mappingOf r'.2.2) [planLine ⟨"a-b", ["o2"]⟩]).toOption = some [planLine ⟨"a", ["o2"]⟩, planLine ⟨"b", ["o2"]⟩] ∧
      (adaptSolution (enumOf ["(b o2)", "(a o2)"]) (mappingOf r'.2.2) [planLine ⟨"a-b", ["o2"]⟩]).toOption = some [planLine ⟨"b", ["o2"]⟩, planLine ⟨"a", ["o2"]⟩] := by
    decide +kernel
  obtain ⟨k1, k2, k3⟩ := hall _ hrun
  have hok : ∀ {x : Except Err (List String)} {l : List String}, x.toOption = some l → x = .ok l := by
    intro x l hx
    cases x with
    | error e => simp [Except.toOption] at hx
    | ok y => simpa [Except.toOption] using hx
  refine ⟨_, _, _, L', rep, Ms, [⟨"a-b", ["o2"]⟩], [⟨"a", ["o2"]⟩, ⟨"b", ["o2"]⟩], [⟨"b", ["o2"]⟩, ⟨"a", ["o2"]⟩], _, _, ordOf_good _, enumOf_good _, sort_ok,
    h1, h2, h3, hr, ⟨∅, ⟨∅, k1, rfl⟩, by simp [goal4]⟩, enumOf_nodup (U := ["(a o2)", "(b o2)"]) (by decide), enumOf_nodup (U := ["(b o2)", "(a o2)"]) (by decide), hok k2, hok k3, ?_, ?_⟩
  · exact ⟨∅, ⟨{A "p" ["o2"]}, by decide +kernel, ∅, by decide +kernel, rfl⟩, by simp [goal4]⟩
  · rintro ⟨s, ⟨m, ⟨_, _, _, _, hm⟩, m', ⟨_, _, happ, _⟩, _⟩, _⟩
    subst hm
    exact absurd happ (by decide +kernel)

end Case
end MacroPlans
end Props
