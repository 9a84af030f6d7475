import Verif.Lemmas.EsamData
import Verif.Lemmas.Roots
import Verif.Props.World
import Verif.Props.SamLimits

/-! C91-C95: the extended SAM learner (`learners/esam.py`). -/
namespace Props
open Model Spec

section
variable {D : Domain} {truth : String → Schema} {obs : List (List Component)} {p : Policy}

/-! ### C91: the pinned learner -/

theorem foldlM_error {α β : Type} {f : α → β → Except Err α} {e : Err} (hf : ∀ a b, f a b = .error e) (x : β) (xs : List β) (a : α) :
    (x :: xs).foldlM f a = .error e := by
  rw [List.foldlM_cons, hf]; rfl

/-- **C91.** With any component in the observations, `learn_action_model` raises `TypeError`. -/
theorem C91_always_raises (E : Esam) (h : obs.flatten ≠ []) : E.learn obs = .error .typeError := by
  unfold Esam.learn Esam.learnWith
  obtain ⟨c, cs, e⟩ := List.exists_cons_of_ne_nil h
  simp only [e, Bind.bind, Except.bind]
  rw [foldlM_error (f := Esam.handleComponent) (e := .typeError) (fun _ _ => rfl)]

/-- C91: without a component it returns, every action is reported unobserved, has no effect and
requires every literal of its vocabulary. -/
theorem C91_empty_returns (hD : WFDomain D) (h : obs.flatten = []) :
    ∃ E' rep, (Esam.init D p).learn obs = .ok (E', rep) ∧
      (∀ a st, (a, st) ∈ rep ↔ a ∈ D.names ∧ st = .unobserved) ∧
      ∀ a ∈ D.names, (E'.base.dom.act a).eff = ∅ ∧
        ∀ l, l ∈ (E'.base.dom.act a).pre ↔ TypedLit D.preds ((D.act a).sig ++ D.consts) l := by
  have hsame : (Esam.init D p).learn obs = (Esam.init D p).learnFixed obs := by
    unfold Esam.learn Esam.learnFixed Esam.learnWith
    rw [h]; rfl
  have : ∃ E' rep, (Esam.init D p).learnFixed obs = .ok (E', rep) := by
    have hc : ({ Esam.init D p with base := (Esam.init D p).base.completeMissing } : Esam) = Esam.init D p := by
      have : (Esam.init D p).base.completeMissing = (Esam.init D p).base :=
        complete_id (L := (Esam.init D p).base) (init_sigs D p true)
      rw [this]
    obtain ⟨b1, b2, b3, b4, b5, b6, b7, b8⟩ := before_construct hD (EInv.init hD p)
    unfold Esam.learnFixed Esam.learnWith
    rw [h]
    simp only [hc, Bind.bind, Except.bind, List.foldlM_nil, pure, Except.pure, Esam.construct, b2]
    exact ⟨_, _, rfl⟩
  obtain ⟨E', rep, hr⟩ := this
  obtain ⟨E1, hl, rfl⟩ := learnFixed_spec hD hr
  have hno : ∀ a, a ∉ E1.base.observed := by
    intro a; rw [hl.inv.observed, h]; simp [compsOf]
  refine ⟨E', _, hsame.trans hr, ?_, ?_⟩
  · intro a st
    rw [(report_of_safe_nil hl.safe (by rw [hl.static.names]; exact hD.names)).2, hl.static.names, hl.observed]
    simp [hno a]
  · intro a ha
    obtain ⟨h1, h2⟩ := hl.unobs a ha (hno a)
    refine ⟨h1, fun l => ?_⟩
    rw [h2]
    exact liftedVocab_typed (hD.sigs a ha)

example : ∃ obs : List (List Component), obs.flatten ≠ [] := ⟨World.obs, by decide⟩
example : ((Esam.init World.D .hard).learn World.obs).toBool = false := by
  rw [C91_always_raises _ (by decide)]; rfl

/-! ### C92: parameter groups of a proxy action -/

theorem lookup_map {sig : List String} {f : String → String} {x y : String} :
    (sig.map fun p => (p, f p)).lookup x = some y ↔ x ∈ sig ∧ y = f x := by
  induction sig with
  | nil => simp
  | cons a as ih =>
    rw [List.map_cons, List.lookup_cons]
    by_cases h : x = a
    · subst h; simp [eq_comm]
    · have : (x == a) = false := by simpa using h
      rw [this]; simp [ih, h]

/-- The dictionary of a non-empty assignment gives each parameter one representative. -/
theorem minimizeParams_lookup {sig : List String} {model : List (Lit × Bool)} (hm : model ≠ []) {x y : String} :
    (minimizeParams sig model).lookup x = some y ↔ x ∈ sig ∧ y = mergeAll sig (occSets sig model) id x := by
  unfold minimizeParams
  rw [if_neg (by simpa using hm)]
  exact lookup_map

/-- **C92.** Two parameters get the same representative exactly when they are linked by a chain of
shared positions of one predicate, avoiding the parameters of unselected literals. -/
theorem C92_groups {sig : List String} {model : List (Lit × Bool)} (hm : model ≠ []) (ha : OneArity model)
    {x y : String} (hx : x ∈ sig) (hy : y ∈ sig) :
    (minimizeParams sig model).lookup x = (minimizeParams sig model).lookup y ↔
      Relation.EqvGen (SameSlot sig model) x y := by
  rw [(minimizeParams_lookup hm).mpr ⟨hx, rfl⟩, (minimizeParams_lookup hm).mpr ⟨hy, rfl⟩, Option.some.injEq,
    mergeAll_conn _ occSets_sub]
  constructor
  · exact EqvGen_mono fun a b h => .rel _ _ ((occSets_rel ha a b).mp h)
  · exact EqvGen_mono fun a b h => .rel _ _ ((occSets_rel ha a b).mpr h)

/-- C92: the representative is a parameter, and its own representative; exactly the parameters have one. -/
theorem C92_representative {sig : List String} {model : List (Lit × Bool)} (hm : model ≠ []) {x y : String}
    (h : (minimizeParams sig model).lookup x = some y) :
    x ∈ sig ∧ y ∈ sig ∧ (minimizeParams sig model).lookup y = some y := by
  obtain ⟨hx, rfl⟩ := (minimizeParams_lookup hm).mp h
  have hI := (RootsInv.id sig).all (occSets sig model) occSets_sub
  exact ⟨hx, hI.mem x hx, (minimizeParams_lookup hm).mpr ⟨hI.mem x hx, (hI.idem x).symm⟩⟩

/-- C92: a parameter of an unselected literal is never merged. -/
theorem C92_unselected_kept {sig : List String} {model : List (Lit × Bool)} (ha : OneArity model)
    {x : String} (hx : x ∈ sig) (hu : InUnselected model x) : (minimizeParams sig model).lookup x = some x := by
  have hm : model ≠ [] := by rintro rfl; obtain ⟨q, hq, _⟩ := hu; cases hq
  have key : ∀ y z, Relation.EqvGen (SameSlot sig model) y z → (y = x ∨ z = x) → y = z := by
    intro y z h
    induction h with
    | rel a b h =>
      rintro (rfl | rfl)
      · exact absurd hu h.2.2.1
      · exact absurd hu h.2.2.2.1
    | refl _ => intro _; rfl
    | symm a b _ ih => intro k; exact (ih k.symm).symm
    | trans a b c _ _ h1 h2 =>
      rintro (rfl | rfl)
      · have := h1 (Or.inl rfl); subst this; exact h2 (Or.inl rfl)
      · have := h2 (Or.inr rfl); subst this; exact h1 (Or.inr rfl)
  have hI := (RootsInv.id sig).all (occSets sig model) occSets_sub
  have hr := hI.mem x hx
  have e : (minimizeParams sig model).lookup x = (minimizeParams sig model).lookup (mergeAll sig (occSets sig model) id x) := by
    rw [(minimizeParams_lookup hm).mpr ⟨hx, rfl⟩, (minimizeParams_lookup hm).mpr ⟨hr, rfl⟩, hI.idem]
  have := key _ _ ((C92_groups hm ha hx hr).mp e) (Or.inl rfl)
  exact (minimizeParams_lookup hm).mpr ⟨hx, this⟩

/-- C92: of two parameters that are merged first, the one declared first represents both. -/
theorem C92_pair {sig : List String} (hn : sig.Nodup) {x y : String} (hx : x ∈ sig) (hy : y ∈ sig) (h : sig.idxOf x < sig.idxOf y) (z : String) :
    (Roots.merge sig id x y z = if z = y then x else z) ∧ (Roots.merge sig id y x z = if z = y then x else z) := by
  have hne : x ≠ y := by rintro rfl; omega
  have hs : ∀ r ∈ sig, Roots.size sig id r = 1 := by
    intro r hr
    unfold Roots.size
    have : (sig.filter fun p => decide (id p = r)) = sig.filter (fun p => p == r) := by
      apply List.filter_congr; intro p _; simp [Bool.beq_eq_decide_eq]
    rw [this, ← List.countP_eq_length_filter]
    exact List.count_eq_one_of_mem hn hr
  have h1 : ¬ sig.idxOf y < sig.idxOf x := by omega
  unfold Roots.merge
  simp only [id, hs x hx, hs y hy, hne, Ne.symm hne, if_false, lt_irrefl, h, h1, decide_false, decide_true, Bool.or_false,
    Bool.and_false, Bool.false_or, Bool.and_true, if_true, Bool.false_eq_true]
  exact ⟨trivial, trivial⟩

example : Roots.merge ["?a", "?b"] id "?b" "?a" "?b" = "?a" := by decide

/-- C92: an empty assignment gives the empty dictionary. -/
theorem C92_empty (sig : List String) : minimizeParams sig [] = [] := rfl

/-- Two selected literals of one predicate and one unselected literal. -/
def groupsModel : List (Lit × Bool) :=
  [(⟨"at", ["?o", "?x"], true⟩, true), (⟨"at", ["?o", "?y"], false⟩, true), (⟨"clear", ["?z"], true⟩, false)]

theorem groupsModel_arity : OneArity groupsModel := by unfold OneArity groupsModel; decide
/-- The sign is ignored: the source and the target of a move become one parameter. -/
example : minimizeParams ["?o", "?x", "?y", "?z"] groupsModel =
    [("?o", "?o"), ("?x", "?x"), ("?y", "?x"), ("?z", "?z")] := by decide +kernel
example : SameSlot ["?o", "?x", "?y", "?z"] groupsModel "?x" "?y" :=
  ⟨by decide, by decide, by unfold InUnselected groupsModel; decide, by unfold InUnselected groupsModel; decide,
    _, List.mem_cons_self, _, List.mem_cons_of_mem _ List.mem_cons_self, rfl, 1, rfl, rfl⟩

/-- C92: the representative need not be the first parameter of the group: the larger group wins. -/
theorem C92_representative_not_first : ∃ (sig : List String) (model : List (Lit × Bool)), OneArity model ∧
    minimizeParams sig model = [("?a", "?b"), ("?b", "?b"), ("?c", "?b")] :=
  ⟨["?a", "?b", "?c"], [(⟨"p", ["?b"], true⟩, true), (⟨"p", ["?c"], true⟩, true),
    (⟨"q", ["?a"], true⟩, true), (⟨"q", ["?c"], true⟩, true)],
    by unfold OneArity; decide, by decide +kernel⟩

/-- C92: rewriting a literal with merged parameters drops an argument. -/
theorem C92_rewrite_drops : ∃ (d : List (String × String)) (l l' : Lit),
    rewriteLit d l = .ok l' ∧ l.args.length = 2 ∧ l'.args.length = 1 :=
  ⟨[("?x", "?x"), ("?y", "?x")], ⟨"conn", ["?x", "?y"], true⟩, ⟨"conn", ["?x"], true⟩, by decide +kernel, rfl, rfl⟩

/-- C92: a literal with an argument outside the dictionary (a constant) raises `KeyError`. -/
theorem C92_rewrite_constant {d : List (String × String)} {l : Lit} {x : String} (hx : x ∈ l.args)
    (hd : d.lookup x = none) : rewriteLit d l = .error .keyError := by
  unfold rewriteLit
  have : ∀ as : List String, x ∈ as → as.mapM (repArg d) = .error .keyError := by
    intro as
    induction as with
    | nil => simp
    | cons a as ih =>
      intro h
      rw [List.mapM_cons]
      by_cases hax : x = a
      · subst hax; unfold repArg; rw [hd]; rfl
      · have hx' : x ∈ as := by simpa [hax] using h
        rw [ih hx']
        unfold repArg
        cases d.lookup a <;> rfl
  simp only [Bind.bind, Except.bind]
  rw [this _ hx]

example : ([("?x", "?x")] : List (String × String)).lookup "c" = none := by decide

/-! ### C93: the clauses of the described algorithm on real histories -/

/-- **C93.** Every clause recorded from real transitions, also with repeated objects, contains a true
effect of the action. -/
theorem C93_clauses_sound (hD : WFDomain D) (hT : WFTruth D truth) {hs : List Component} {E : Esam}
    (h : hs.foldlM Esam.handleFixed (Esam.init D p) = .ok E) (he : ∀ c ∈ hs, Explained truth c) :
    ∀ a cl, cl ∈ E.clauses a → ∃ l ∈ cl, l ∈ (truth a).eff := by
  have hI : EInv D p hs E := by simpa using (EInv.init hD p).fold _ h
  intro a cl hcl
  obtain ⟨c, hc, g, hg, rfl⟩ := (hI.clauses a cl).mp hcl
  obtain ⟨hch, rfl⟩ := mem_compsOf.mp hc
  obtain ⟨l, h1, h2, _⟩ := clause_true hD hT (hI.known c hch) (he c hch) hg
  exact ⟨l, h1, h2⟩

/-- C93: the true effects among the variables satisfy the formula. -/
theorem C93_truth_is_model (hD : WFDomain D) (hT : WFTruth D truth) {hs : List Component} {E : Esam}
    (h : hs.foldlM Esam.handleFixed (Esam.init D p) = .ok E) (he : ∀ c ∈ hs, Explained truth c) (a : String) :
    (formulaVars (effFormula (E.clauses a) (E.cannotBe a))).filter (fun l => l ∈ (truth a).eff) ∈
      formulaModels (effFormula (E.clauses a) (E.cannotBe a)) := by
  rw [mem_formulaModels]
  refine ⟨Finset.filter_subset _ _, fun d hd => ?_⟩
  obtain ⟨l, h1, h2⟩ := C93_clauses_sound hD hT h he a d (mem_effFormula.mp hd).1.1
  exact ⟨l, h1, Finset.mem_filter.mpr ⟨mem_formulaVars.mpr ⟨d, hd, h1⟩, h2⟩⟩

/-- C93: if the learner returns and, for an observed action, no variable of its formula that is not a
true effect is refuted by a learned precondition, the effects learned are exactly the true effects
among the variables; every other variable becomes a precondition. -/
theorem C93_effects_exact (hD : WFDomain D) (hT : WFTruth D truth) {E E' : Esam} {rep}
    (hf : obs.flatten.foldlM Esam.handleFixed (Esam.init D p) = .ok E)
    (h : (Esam.init D p).learnFixed obs = .ok (E', rep)) (he : ∀ c ∈ obs.flatten, Explained truth c)
    {a : String} (ho : a ∈ E'.base.observed)
    (hnc : ∀ l ∈ formulaVars (effFormula (E.clauses a) (E.cannotBe a)), l ∉ (truth a).eff → l.neg ∉ (E'.base.dom.act a).pre) :
    (∀ l, l ∈ (E'.base.dom.act a).eff ↔
      l ∈ formulaVars (effFormula (E.clauses a) (E.cannotBe a)) ∧ l ∈ (truth a).eff) ∧
    ∀ l ∈ formulaVars (effFormula (E.clauses a) (E.cannotBe a)), l ∉ (truth a).eff → l ∈ (E'.base.dom.act a).pre := by
  obtain ⟨E1, hl, _⟩ := learnFixed_spec hD h
  have hE : E1.clauses a = E.clauses a ∧ E1.cannotBe a = E.cannotBe a := by
    have hI : EInv D p obs.flatten E := by simpa using (EInv.init hD p).fold _ hf
    constructor
    · ext cl; rw [hl.inv.clauses, hI.clauses]
    · ext g; rw [hl.inv.cannotBe, hI.cannotBe]
  obtain ⟨pre₁, P, hch, _, h1, h2⟩ := hl.obs a (by rw [← hl.observed]; exact ho)
  rw [hE.1, hE.2] at hch h2
  have hT' := C93_truth_is_model hD hT hf he a
  have hmem : (formulaVars (effFormula (E.clauses a) (E.cannotBe a))).filter (fun l => l ∈ (truth a).eff) ∈
      proxyModels pre₁ (effFormula (E.clauses a) (E.cannotBe a)) := by
    rw [mem_proxyModels]
    refine ⟨mem_formulaModels.mp hT', fun l hlv hn hc => ?_⟩
    have hlt : l ∉ (truth a).eff := fun k => hn (Finset.mem_filter.mpr ⟨hlv, k⟩)
    exact hnc l hlv hlt (by rw [h2]; exact Finset.mem_union_left _ hc)
  have e := hch.only _ hmem
  refine ⟨fun l => ?_, fun l hlv hlt => ?_⟩
  · rw [h1, ← e, Finset.mem_filter]
  · rw [h2, Finset.mem_union, Finset.mem_sdiff, ← e]
    exact Or.inr ⟨hlv, fun k => hlt (Finset.mem_filter.mp k).2⟩

/-! ### C94: data with distinct objects -/

/-- **C94.** On real data with distinct objects the described algorithm returns; the effects of an
observed action are those the SAM learner learns, and its preconditions are those of the SAM learner
that removes all negative ones (policy `hard`) or none (`soft`, `no_remove`). -/
theorem C94_equals_sam (hD : WFDomain D) (hT : WFTruth D truth)
    (hk : ∀ c ∈ obs.flatten, c.call.name ∈ D.names) (hd : DistinctData D truth obs.flatten)
    (hsuc : ∀ c ∈ obs.flatten, c.success = true) (inj : Bool) :
    ∃ E' rep L' rep', (Esam.init D p).learnFixed obs = .ok (E', rep) ∧
      (Learner.init D (if p = .hard then .hard else .noRemove) inj).learn obs = .ok (L', rep') ∧
      ∀ a ∈ D.names, (a ∈ E'.base.observed ↔ a ∈ L'.observed) ∧
        (a ∈ E'.base.observed → (E'.base.dom.act a).pre = (L'.dom.act a).pre ∧ (E'.base.dom.act a).eff = (L'.dom.act a).eff) := by
  obtain ⟨E', rep, h⟩ := learnFixed_ok (p := p) hD hT hk hd
  obtain ⟨E1, hl, _⟩ := learnFixed_spec hD h
  have hok : ∃ r, (Learner.init D (if p = .hard then .hard else .noRemove) inj).learn obs = .ok r :=
    (learn_ok_iff (L0 := Learner.init D (if p = .hard then .hard else .noRemove) inj) hD.names (init_sigs D _ inj)).mpr
      fun c hc _ => hk c hc
  obtain ⟨⟨L', rep'⟩, hL⟩ := hok
  refine ⟨E', rep, L', rep', h, hL, fun a ha => ?_⟩
  have hus : usable obs.flatten a = compsOf obs.flatten a := by
    unfold usable compsOf
    apply List.filter_congr
    intro c hc
    have h1 := hsuc c hc
    have h2 : containsDuplicates c.call.params = false := containsDuplicates_false.mpr (hd.nodup c hc)
    simp [h1, h2]
  obtain ⟨c1, _, c3, _⟩ := closed_form hD hL ha
  rw [hus] at c1 c3
  have hobs : a ∈ E'.base.observed ↔ compsOf obs.flatten a ≠ [] := by rw [hl.observed, hl.inv.observed]
  refine ⟨by rw [hobs, c3], fun ho => ?_⟩
  have hne := hobs.mp ho
  obtain ⟨pre₁, P, hch, hp1, e1, e2⟩ := hl.obs a (by rw [← hl.observed]; exact ho)
  obtain ⟨g1, g2⟩ := chosen_good hD hT hl.inv hd a pre₁
  have hP : P = seenEff D obs.flatten a := g2.only _ hch.model
  have heffE : (E'.base.dom.act a).eff = seenEff D obs.flatten a := by rw [e1, hP]
  have heffL : (L'.dom.act a).eff = seenEff D obs.flatten a := by
    obtain ⟨hls, _⟩ := learn_spec (L0 := Learner.init D (if p = .hard then .hard else .noRemove) inj) hD.names (init_sigs D _ inj) hL
    ext l
    rw [mem_seenEff, ← hus]
    constructor
    · intro k
      have := hls.effSub a l k
      simpa [Learner.init, (hD.empty a ha).2.1] using this
    · intro k
      refine hls.effSup a l (Or.inr k) (Or.inr ⟨by simp [Learner.init], fun c hc _ => ?_⟩)
      have hlt : l ∈ (truth a).eff := by
        apply seenEff_sound hD hT hl.inv.known hd
        rw [mem_seenEff, ← hus]; exact k
      rw [hus] at hc
      obtain ⟨hch', rfl⟩ := mem_compsOf.mp hc
      exact (fact_of ha (hD.sigs _ ha) hT (hd.explained c hch') (hd.nodup c hch') (hd.noConst c hch')).effNext l hlt
  refine ⟨?_, by rw [heffE, heffL]⟩
  ext l
  rw [e2, g1, hP, Finset.sdiff_self, Finset.union_empty, hp1, c1, hl.inv.pre a ha]
  have hpk : polKeep p ∅ l ↔ polKeep (if p = .hard then .hard else .noRemove) (L'.dom.act a).eff l := by
    unfold polKeep
    cases p <;> simp
  rw [hpk]
  simp [hne]

/-- C94: safety. With a policy that keeps negative preconditions, whenever a learned action is
applicable the true action is, and for distinct objects both lead to the same state. -/
theorem C94_safe (hD : WFDomain D) (hT : WFTruth D truth) (hp : p ≠ .hard)
    (hd : DistinctData D truth obs.flatten) {E' : Esam} {rep} (h : (Esam.init D p).learnFixed obs = .ok (E', rep))
    {a : String} (ha : a ∈ D.names) {ρ : String → String} {s : State} (happ : applicable (E'.base.dom.act a).pre ρ s) :
    applicable (truth a).pre ρ s ∧
    (Spec.Injective D.consts (D.act a).sig ρ → successor (E'.base.dom.act a).eff ρ s = successor (truth a).eff ρ s) := by
  obtain ⟨E1, hl, _⟩ := learnFixed_spec hD h
  have hkeep : ∀ l, polKeep p ∅ l := by intro l; unfold polKeep; cases p <;> simp_all
  have hobsD : ∀ a ∈ E1.base.observed, a ∈ D.names ∧ compsOf obs.flatten a ≠ [] := by
    intro a ho
    have := (hl.inv.observed a).mp ho
    obtain ⟨c, hc⟩ := List.exists_mem_of_ne_nil _ this
    obtain ⟨h1, h2⟩ := mem_compsOf.mp hc
    exact ⟨h2 ▸ hl.inv.known c h1, this⟩
  have hpreE : ∀ a ∈ E1.base.observed, ∀ l, (∀ c ∈ compsOf obs.flatten a, l ∈ obsPrev D c) → l ∈ (E'.base.dom.act a).pre := by
    intro a ho l hall
    obtain ⟨pre₁, P, hch, hp1, e1, e2⟩ := hl.obs a ho
    rw [e2, Finset.mem_union, hp1, hl.inv.pre a (hobsD a ho).1]
    exact Or.inl ⟨⟨(hobsD a ho).2, hall⟩, hkeep l⟩
  have heffE : ∀ a ∈ E1.base.observed, (E'.base.dom.act a).eff = seenEff D obs.flatten a := by
    intro a ho
    obtain ⟨pre₁, P, hch, hp1, e1, e2⟩ := hl.obs a ho
    rw [e1]
    exact (chosen_good hD hT hl.inv hd a pre₁).2.only _ hch.model
  have hfact : ∀ c ∈ obs.flatten, Fact D (truth c.call.name) c := fun c hc =>
    fact_of (hl.inv.known c hc) (hD.sigs _ (hl.inv.known c hc)) hT (hd.explained c hc) (hd.nodup c hc) (hd.noConst c hc)
  have hI : SafeInv D truth E'.base := by
    refine ⟨hl.static, ?_, ?_, ?_, ?_, ?_, ?_, ?_, ?_⟩
    · rw [hl.sigs]; intro q hq; simp only [List.mem_map] at hq; obtain ⟨b, hb, rfl⟩ := hq; exact hb
    · intro b hb; rw [hl.observed] at hb; exact (hobsD b hb).1
    · intro b _ l _; rw [hl.base]; simp
    · intro b hb
      by_cases ho : b ∈ E1.base.observed
      · rw [heffE b ho]; exact seenEff_sound hD hT hl.inv.known hd
      · rw [(hl.unobs b hb ho).1]; simp
    · intro b hb l hlt
      rw [hl.observed] at hb
      refine hpreE b hb l fun c hc => ?_
      obtain ⟨h1, rfl⟩ := mem_compsOf.mp hc
      exact (hfact c h1).pre l hlt
    · intro b hb e het
      rw [hl.observed] at hb
      by_cases hall : ∀ c ∈ compsOf obs.flatten b, e ∈ obsPrev D c
      · exact Or.inr (hpreE b hb e hall)
      · push Not at hall
        obtain ⟨c, hc, hno⟩ := hall
        left
        rw [heffE b hb, mem_seenEff]
        refine ⟨c, hc, ?_⟩
        obtain ⟨h1, rfl⟩ := mem_compsOf.mp hc
        exact (hfact c h1).effSeen e het hno
    · intro b hb l hlp
      by_cases ho : b ∈ E1.base.observed
      · obtain ⟨pre₁, P, hch, hp1, e1, e2⟩ := hl.obs b ho
        obtain ⟨g1, g2⟩ := chosen_good hD hT hl.inv hd b pre₁
        rw [e2, g1, g2.only _ hch.model, Finset.sdiff_self, Finset.union_empty, hp1, hl.inv.pre b hb] at hlp
        obtain ⟨c, hc⟩ := List.exists_mem_of_ne_nil _ hlp.1.1
        have := hlp.1.2 c hc
        obtain ⟨h1, rfl⟩ := mem_compsOf.mp hc
        rw [obsPrev_iff (hD.sigs _ hb) (goodCall_of hT hb (hd.explained c h1) (hd.nodup c h1) (hd.noConst c h1))] at this
        exact this.1
      · rw [(hl.unobs b hb ho).2] at hlp
        exact (liftedVocab_typed (hD.sigs b hb)).mp hlp
    · intro b hb hno
      rw [hl.observed] at hno
      exact (hl.unobs b hb hno).1
  refine safe_of_inv hD hT hI ?_ ha happ
  intro b hb hno
  rw [hl.observed] at hno
  rw [(hl.unobs b hb hno).2]


/-- The World data without the failed attempt has distinct objects. -/
theorem world_distinct : DistinctData World.D World.truth [[World.c1], [World.c2]].flatten where
  explained := by
    intro c hc
    rcases (by simpa using hc : c = World.c1 ∨ c = World.c2) with rfl | rfl <;> exact ⟨rfl, by decide, by decide⟩
  nodup := by decide
  noConst := by intro c _ o _; simp [World.D, Sig.names]
  fresh := by decide

example : ∃ E' rep, (Esam.init World.D .soft).learnFixed [[World.c1], [World.c2]] = .ok (E', rep) :=
  learnFixed_ok World.wfD World.wfT (by decide) world_distinct

/-! ### C95: when the described algorithm returns, and repeated objects -/

/-- **C95.** After the components were read, the described algorithm returns exactly when every observed
action has one non-contradictory model. -/
theorem C95_returns_iff (hD : WFDomain D) {E : Esam} (hf : obs.flatten.foldlM Esam.handleFixed (Esam.init D p) = .ok E) :
    (∃ r, (Esam.init D p).learnFixed obs = .ok r) ↔ ∀ a ∈ E.base.observed,
      ∃ pre₁ : Finset Lit, (∀ l, l ∈ pre₁ ↔ l ∈ (E.base.dom.act a).pre ∧ (l.pos = true ∨ p ≠ .hard)) ∧
        ∃! P, P ∈ proxyModels pre₁ (effFormula (E.clauses a) (E.cannotBe a)) := by
  have hI : EInv D p obs.flatten E := by simpa using (EInv.init hD p).fold _ hf
  have hk : ∀ l, polKeep p ∅ l ↔ (l.pos = true ∨ p ≠ .hard) := by
    intro l; unfold polKeep; cases p <;> simp
  have hobsD : ∀ a ∈ E.base.observed, a ∈ D.names := by
    intro a ho
    obtain ⟨c, hc⟩ := List.exists_mem_of_ne_nil _ ((hI.observed a).mp ho)
    obtain ⟨h1, h2⟩ := mem_compsOf.mp hc
    exact h2 ▸ hI.known c h1
  obtain ⟨b1, b2, b3, b4, b5, b6, b7, b8⟩ := before_construct hD hI
  constructor
  · rintro ⟨⟨E', rep⟩, h⟩ a ho
    obtain ⟨E1, hl, _⟩ := learnFixed_spec hD h
    have hcl : E1.clauses a = E.clauses a := by ext cl; rw [hl.inv.clauses, hI.clauses]
    have hcb : E1.cannotBe a = E.cannotBe a := by ext g; rw [hl.inv.cannotBe, hI.cannotBe]
    obtain ⟨pre₁, P, hch, hp1, _⟩ := hl.obs a ((hl.inv.observed a).mpr ((hI.observed a).mp ho))
    refine ⟨pre₁, fun l => ?_, P, ?_, ?_⟩
    · rw [hp1, hl.inv.pre a (hobsD a ho), hI.pre a (hobsD a ho), hk]
    · rw [← hcl, ← hcb]; exact hch.model
    · intro Q hQ; rw [← hcl, ← hcb] at hQ; exact hch.only Q hQ
  · intro hall
    have hnd : (E.base.applyPolicy.handleUnobserved).observed.Nodup := by rw [b2]; exact hI.nodup
    obtain ⟨E2, h2⟩ := esamConstructs_ok (E := { E with base := E.base.applyPolicy.handleUnobserved }) hnd (by
      intro a ho
      have ho' : a ∈ E.base.observed := by rw [← b2]; exact ho
      obtain ⟨pre₁, hp1, P, hP, hu⟩ := hall a ho'
      have : ((E.base.applyPolicy.handleUnobserved).dom.act a).pre = pre₁ := by
        ext l; rw [b8 a (hobsD a ho') ho', hp1, hk]
      refine ⟨P, ?_, ?_⟩
      · show P ∈ proxyModels ((E.base.applyPolicy.handleUnobserved).dom.act a).pre _
        rw [this]; exact hP
      · intro Q hQ
        change Q ∈ proxyModels ((E.base.applyPolicy.handleUnobserved).dom.act a).pre _ at hQ
        rw [this] at hQ; exact hu Q hQ)
    refine ⟨(E2, E2.base.report), ?_⟩
    unfold Esam.learnFixed Esam.learnWith
    have hc : ({ Esam.init D p with base := (Esam.init D p).base.completeMissing } : Esam) = Esam.init D p := by
      have : (Esam.init D p).base.completeMissing = (Esam.init D p).base := complete_id (L := (Esam.init D p).base) (init_sigs D p true)
      rw [this]
    simp only [hc, Bind.bind, Except.bind, hf, Esam.construct]
    rw [h2]

/-- C95: two proxies for an action raise `KeyError`, none raises `ValueError`. -/
theorem C95_two_proxies (E : Esam) (a : String) {P Q : Finset Lit} (hne : P ≠ Q)
    (hP : P ∈ proxyModels (E.base.dom.act a).pre (effFormula (E.clauses a) (E.cannotBe a)))
    (hQ : Q ∈ proxyModels (E.base.dom.act a).pre (effFormula (E.clauses a) (E.cannotBe a))) :
    E.constructAction a = .error .keyError := by
  have : 2 ≤ (proxyModels (E.base.dom.act a).pre (effFormula (E.clauses a) (E.cannotBe a))).card :=
    Finset.one_lt_card.mpr ⟨P, hP, Q, hQ, hne⟩
  unfold Esam.constructAction
  simp only
  split
  · omega
  · omega
  · rfl

theorem C95_no_proxy (E : Esam) (a : String)
    (h : ∀ P, P ∉ proxyModels (E.base.dom.act a).pre (effFormula (E.clauses a) (E.cannotBe a))) :
    E.constructAction a = .error .valueError := by
  have : (proxyModels (E.base.dom.act a).pre (effFormula (E.clauses a) (E.cannotBe a))).card = 0 := by
    rw [Finset.card_eq_zero, Finset.eq_empty_iff_forall_notMem]; exact h
  unfold Esam.constructAction
  simp only [this]

end

/-- The state after learning, for evaluation. -/
def runEsam (D : Domain) (p : Policy) (obs : List (List Component)) : Esam :=
  match (Esam.init D p).learnFixed obs with
  | .ok r => r.1
  | .error _ => Esam.init D p

theorem runEsam_eq {D : Domain} {p : Policy} {obs : List (List Component)}
    (h : ((Esam.init D p).learnFixed obs).toBool = true) : ∃ rep, (Esam.init D p).learnFixed obs = .ok (runEsam D p obs, rep) := by
  unfold runEsam
  cases hr : (Esam.init D p).learnFixed obs with
  | error e => rw [hr] at h; cases h
  | ok r => exact ⟨r.2, rfl⟩

open Limits

/-- Non-vacuity of C93: real data with a repeated object, whose clause has two literals. -/
example : ProblemOK (dom [p1] [] [("?x", o), ("?y", o)]) (tru [("?x", o), ("?y", o)] ∅ {P "?x"})
    [[comp ∅ ["a", "a"] {A "p" ["a"]}]] := by decide +kernel
example : (match [comp ∅ ["a", "a"] {A "p" ["a"]}].foldlM Esam.handleFixed (Esam.init (dom [p1] [] [("?x", o), ("?y", o)]) .soft) with
    | .ok E => E.clauses "act" | .error _ => ∅) = {{P "?x", P "?y"}} := by decide +kernel

/-- C95: a spurious effect. The true action adds `(p ?x)`; from one call with `?x = ?y` the only model
without contradiction says it adds `(p ?y)` too. -/
theorem C95_spurious_effect : ∃ (D : Domain) (truth : String → Schema) (obs : List (List Component)) (E' : Esam)
    (rep : List (String × Status)) (ρ : String → String) (s : State),
    ProblemOK D truth obs ∧ D.consts = [] ∧ (Esam.init D .soft).learnFixed obs = .ok (E', rep) ∧
    Spec.Injective D.consts (D.act "act").sig ρ ∧ applicable (E'.base.dom.act "act").pre ρ s ∧
    successor (E'.base.dom.act "act").eff ρ s ≠ successor (truth "act").eff ρ s := by
  let sig : Sig := [("?x", o), ("?y", o)]
  let obs := [[comp ∅ ["a", "a"] {A "p" ["a"]}]]
  obtain ⟨rep, hr⟩ := runEsam_eq (D := dom [p1] [] sig) (p := .soft) (obs := obs) (by decide +kernel)
  exact ⟨dom [p1] [] sig, tru sig ∅ {P "?x"}, obs, _, rep, subst ["?x", "?y"] ["a", "b"], ∅,
    by decide +kernel, rfl, hr, by unfold Spec.Injective; decide +kernel, by decide +kernel, by decide +kernel⟩

/-- C95: a lost effect. The true action adds `(p ?x)` and `(p ?y)`. The call that showed both is
absorbed by the one that showed `(p ?x)` alone. -/
theorem C95_lost_effect : ∃ (D : Domain) (truth : String → Schema) (obs : List (List Component)) (E' : Esam)
    (rep : List (String × Status)) (ρ : String → String) (s : State),
    ProblemOK D truth obs ∧ D.consts = [] ∧ (Esam.init D .soft).learnFixed obs = .ok (E', rep) ∧
    Spec.Injective D.consts (D.act "act").sig ρ ∧ applicable (E'.base.dom.act "act").pre ρ s ∧
    successor (E'.base.dom.act "act").eff ρ s ≠ successor (truth "act").eff ρ s := by
  let sig : Sig := [("?x", o), ("?y", o)]
  let obs := [[comp {A "p" ["b"]} ["a", "b"] {A "p" ["a"], A "p" ["b"]}, comp ∅ ["a", "a"] {A "p" ["a"]}]]
  obtain ⟨rep, hr⟩ := runEsam_eq (D := dom [p1] [] sig) (p := .soft) (obs := obs) (by decide +kernel)
  exact ⟨dom [p1] [] sig, tru sig ∅ {P "?x", P "?y"}, obs, _, rep, subst ["?x", "?y"] ["a", "b"], ∅,
    by decide +kernel, rfl, hr, by unfold Spec.Injective; decide +kernel, by decide +kernel, by decide +kernel⟩

/-- C95: with the default policy the same real call gives three proxies and `KeyError`. -/
theorem C95_hard_raises : ∃ (D : Domain) (truth : String → Schema) (obs : List (List Component)),
    ProblemOK D truth obs ∧ D.consts = [] ∧ ∃ E', (Esam.init D .hard).learnFixed obs = .error E' ∧ E' = Err.keyError := by
  let sig : Sig := [("?x", o), ("?y", o)]
  let obs := [[comp ∅ ["a", "a"] {A "p" ["a"]}]]
  refine ⟨dom [p1] [] sig, tru sig ∅ {P "?x"}, obs, by decide +kernel, rfl, .keyError, ?_, rfl⟩
  have : (match (Esam.init (dom [p1] [] sig) .hard).learnFixed obs with | .ok _ => none | .error e => some e) = some .keyError := by
    decide +kernel
  cases hr : (Esam.init (dom [p1] [] sig) .hard).learnFixed obs with
  | ok r => rw [hr] at this; cases this
  | error e => rw [hr] at this; cases this; rfl

/-- C95: components flagged as failed are learned from: the true precondition `(p ?x)` is lost, which
the SAM learner keeps on the same data. -/
theorem C95_failed_component_unsafe : ∃ (D : Domain) (truth : String → Schema) (obs : List (List Component)) (E' : Esam)
    (rep : List (String × Status)) (ρ : String → String) (s : State),
    ProblemOK D truth obs ∧ (Esam.init D .soft).learnFixed obs = .ok (E', rep) ∧
    applicable (E'.base.dom.act "act").pre ρ s ∧ ¬ applicable (truth "act").pre ρ s := by
  let sig : Sig := [("?x", o)]
  let obs := [[comp {A "p" ["a"]} ["a"] {A "p" ["a"]}, { comp ∅ ["a"] ∅ with success := false }]]
  obtain ⟨rep, hr⟩ := runEsam_eq (D := dom [p1] [] sig) (p := .soft) (obs := obs) (by decide +kernel)
  exact ⟨dom [p1] [] sig, tru sig {P "?x"} ∅, obs, _, rep, subst ["?x"] ["a"], ∅,
    by decide +kernel, hr, by decide +kernel, by decide +kernel⟩

end Props
