import Verif.Lemmas.SamIneq
import Verif.Lemmas.Check
import Verif.Props.World

/-! C05-C13: behaviour of the SAM learner over all data. -/
namespace Props
open Model Spec

section
variable {D : Domain} {obs obs₁ obs₂ : List (List Component)} {L' L₁ L₂ : Learner}
  {rep rep₁ rep₂ : List (String × Status)} {inj : Bool} {p : Policy}

theorem closed_form (hD : WFDomain D) (h : (Learner.init D p inj).learn obs = .ok (L', rep)) {a : String} (ha : a ∈ D.names) :
    (∀ l, l ∈ (L'.dom.act a).pre ↔
      (((usable obs.flatten a ≠ [] ∧ ∀ c ∈ usable obs.flatten a, l ∈ obsPrev D c) ∨
        (usable obs.flatten a = [] ∧ l ∈ liftedVocab D (D.act a).sig)) ∧ polKeep p (L'.dom.act a).eff l)) ∧
    (D.consts = [] → ∀ l, l ∈ (L'.dom.act a).eff ↔ ∃ c ∈ usable obs.flatten a, l ∈ obsEff D c) ∧
    (a ∈ L'.observed ↔ usable obs.flatten a ≠ []) ∧ (L'.dom.act a).sig = (D.act a).sig := by
  obtain ⟨hl, _⟩ := learn_spec (L0 := Learner.init D p inj) hD.names (init_sigs D _ inj) h
  have e1 : (D.act a).pre = ∅ := (hD.empty a ha).1
  have e2 : (D.act a).eff = ∅ := (hD.empty a ha).2.1
  refine ⟨fun l => ?_, fun hc l => ⟨fun k => ?_, fun k => ?_⟩, ?_, hl.static.sig a⟩
  · rw [hl.pre a ha]
    have hpf : PreForm (Learner.init D p inj).dom (a ∈ (Learner.init D p inj).observed)
        ((Learner.init D p inj).dom.act a).pre (usable obs.flatten a) l ↔
        usable obs.flatten a ≠ [] ∧ ∀ c ∈ usable obs.flatten a, l ∈ obsPrev D c := by
      rw [← preForm_empty]; simp [Learner.init, e1]
    rw [hpf]
    simp [Learner.init]
  · have := hl.effSub a l k
    simpa [Learner.init, e2] using this
  · exact hl.effSup a l (Or.inr k) (Or.inl hc)
  · rw [hl.observed]; simp [Learner.init]

theorem ineq_form (hD : WFDomain D) (h : (Learner.init D p inj).learn obs = .ok (L', rep)) {a : String} (ha : a ∈ D.names) (q) :
    q ∈ (L'.dom.act a).ineq ↔ (inj = true ∧ q ∈ sameTypePairs (D.act a).sig) ∧
      ∀ c ∈ obs.flatten, c.success = true → c.call.name = a → ¬ c.call.params.Nodup →
        q ∉ duplicatePairs (D.act a).sig c.call.params := by
  obtain ⟨hl, _⟩ := learn_spec (L0 := Learner.init D p inj) hD.names (init_sigs D _ inj) h
  have e3 : (D.act a).ineq = ∅ := (hD.empty a ha).2.2
  rw [hl.ineq]
  simp [Learner.init, e3, ha]

theorem mem_usable_congr (hsame : ∀ c : Component, c.success = true → (c ∈ obs₁.flatten ↔ c ∈ obs₂.flatten)) (a : String) (c) :
    c ∈ usable obs₁.flatten a ↔ c ∈ usable obs₂.flatten a := by
  rw [mem_usable, mem_usable]
  constructor
  · rintro ⟨h1, h2, h3⟩; exact ⟨(hsame c h2).mp h1, h2, h3⟩
  · rintro ⟨h1, h2, h3⟩; exact ⟨(hsame c h2).mpr h1, h2, h3⟩

theorem usable_nil_congr (hsame : ∀ c : Component, c.success = true → (c ∈ obs₁.flatten ↔ c ∈ obs₂.flatten)) (a : String) :
    usable obs₁.flatten a = [] ↔ usable obs₂.flatten a = [] := by
  rw [List.eq_nil_iff_forall_not_mem, List.eq_nil_iff_forall_not_mem]
  simp only [mem_usable_congr hsame]

theorem report_form (hD : WFDomain D) (h : (Learner.init D p inj).learn obs = .ok (L', rep)) :
    (rep.map Prod.fst).Nodup ∧
    ∀ a st, (a, st) ∈ rep ↔ a ∈ D.names ∧ ((st = .notSafe ∧ a ∈ L'.observed) ∨ (st = .unobserved ∧ a ∉ L'.observed)) := by
  obtain ⟨hl, hr⟩ := learn_spec (L0 := Learner.init D p inj) hD.names (init_sigs D _ inj) h
  have hs : L'.safe = [] := hl.safe
  have hn : L'.dom.names = D.names := hl.static.names
  subst hr
  have hnd : (((L'.dom.names.filter (· ∈ L'.observed.toFinset \ (∅ : Finset String))).map (·, Status.notSafe)
    ++ (L'.dom.names.filter (· ∈ L'.dom.names.toFinset \ L'.observed.toFinset)).map (·, Status.unobserved)).map Prod.fst).Nodup := by
    rw [List.map_append, List.map_map, List.map_map]
    have e1 : (Prod.fst ∘ fun x : String => (x, Status.notSafe)) = id := rfl
    have e2 : (Prod.fst ∘ fun x : String => (x, Status.unobserved)) = id := rfl
    rw [e1, e2, List.map_id, List.map_id, List.nodup_append, hn]
    refine ⟨hD.names.filter _, hD.names.filter _, ?_⟩
    rintro x hx y hy rfl
    simp only [List.mem_filter, Finset.mem_sdiff, decide_eq_true_eq] at hx hy
    exact hy.2.2 hx.2.1
  have hrep : L'.report = (L'.dom.names.filter (· ∈ L'.observed.toFinset \ (∅ : Finset String))).map (·, Status.notSafe)
    ++ (L'.dom.names.filter (· ∈ L'.dom.names.toFinset \ L'.observed.toFinset)).map (·, Status.unobserved) := by
    unfold Learner.report
    simp only [hs, List.map_nil, List.nil_append, List.toFinset_nil]
    exact Py.dictOf_of_nodup hnd
  rw [hrep]
  refine ⟨hnd, fun a st => ?_⟩
  simp only [List.mem_append, List.mem_map, List.mem_filter, Finset.mem_sdiff, decide_eq_true_eq, List.mem_toFinset,
    Finset.notMem_empty, not_false_eq_true, and_true, hn, Prod.mk.injEq]
  constructor
  · rintro (⟨b, ⟨h1, h2⟩, rfl, rfl⟩ | ⟨b, ⟨h1, _, h2⟩, rfl, rfl⟩)
    · exact ⟨h1, Or.inl ⟨rfl, h2⟩⟩
    · exact ⟨h1, Or.inr ⟨rfl, h2⟩⟩
  · rintro ⟨h1, ⟨rfl, h2⟩ | ⟨rfl, h2⟩⟩
    · exact Or.inl ⟨a, ⟨h1, h2⟩, rfl, rfl⟩
    · exact Or.inr ⟨a, ⟨h1, h1, h2⟩, rfl, rfl⟩

/-- **C05.** Order, grouping and repetition of the observations do not matter (domains without
constants): two data sets with the same successful transitions give equal action models. -/
theorem C05_order_irrelevant (hD : WFDomain D) (hc : D.consts = [])
    (hsame : ∀ c : Component, c.success = true → (c ∈ obs₁.flatten ↔ c ∈ obs₂.flatten))
    (h₁ : (Learner.init D p inj).learn obs₁ = .ok (L₁, rep₁)) (h₂ : (Learner.init D p inj).learn obs₂ = .ok (L₂, rep₂)) :
    (∀ a ∈ D.names, L₁.dom.act a = L₂.dom.act a) ∧ (∀ e, e ∈ rep₁ ↔ e ∈ rep₂) := by
  constructor
  · intro a ha
    obtain ⟨p1, e1, o1, s1⟩ := closed_form hD h₁ ha
    obtain ⟨p2, e2, o2, s2⟩ := closed_form hD h₂ ha
    have heff : (L₁.dom.act a).eff = (L₂.dom.act a).eff := by
      ext l; rw [e1 hc, e2 hc]; simp only [mem_usable_congr hsame]
    have hpre : (L₁.dom.act a).pre = (L₂.dom.act a).pre := by
      ext l; rw [p1, p2, heff]; simp only [mem_usable_congr hsame, ne_eq, usable_nil_congr hsame]
    have hineq : (L₁.dom.act a).ineq = (L₂.dom.act a).ineq := by
      ext q; rw [ineq_form hD h₁ ha, ineq_form hD h₂ ha]
      apply and_congr_right; intro _
      constructor
      · intro k c hc hs; exact k c ((hsame c hs).mpr hc) hs
      · intro k c hc hs; exact k c ((hsame c hs).mp hc) hs
    cases h1 : L₁.dom.act a; cases h2 : L₂.dom.act a
    simp_all
  · rintro ⟨a, st⟩
    rw [(report_form hD h₁).2, (report_form hD h₂).2]
    by_cases ha : a ∈ D.names
    · have e : (a ∈ L₁.observed ↔ a ∈ L₂.observed) := by
        rw [(closed_form hD h₁ ha).2.2.1, (closed_form hD h₂ ha).2.2.1, ne_eq, ne_eq, usable_nil_congr hsame]
      rw [e]
    · simp [ha]

/-- C05: learning succeeds on one data set iff it succeeds on the other. -/
theorem C05_success_irrelevant (hD : WFDomain D)
    (hsame : ∀ c : Component, c.success = true → (c ∈ obs₁.flatten ↔ c ∈ obs₂.flatten)) :
    (∃ r, (Learner.init D p inj).learn obs₁ = .ok r) ↔ (∃ r, (Learner.init D p inj).learn obs₂ = .ok r) := by
  rw [learn_ok_iff (L0 := Learner.init D p inj) hD.names (init_sigs D p inj),
    learn_ok_iff (L0 := Learner.init D p inj) hD.names (init_sigs D p inj)]
  constructor
  · intro k c hc hs; exact k c ((hsame c hs).mpr hc) hs
  · intro k c hc hs; exact k c ((hsame c hs).mp hc) hs

/-- **C06.** More observations of an already observed action only remove preconditions and inequality
preconditions and only add effects (domains without constants, any policy). -/
theorem C06_monotone (hD : WFDomain D) (hc : D.consts = [])
    (hsub : ∀ c ∈ obs₁.flatten, c ∈ obs₂.flatten)
    (h₁ : (Learner.init D p inj).learn obs₁ = .ok (L₁, rep₁)) (h₂ : (Learner.init D p inj).learn obs₂ = .ok (L₂, rep₂))
    {a : String} (ha : a ∈ D.names) (ho : Observed obs₁ a) :
    (L₂.dom.act a).pre ⊆ (L₁.dom.act a).pre ∧ (L₁.dom.act a).eff ⊆ (L₂.dom.act a).eff ∧
    (L₂.dom.act a).ineq ⊆ (L₁.dom.act a).ineq := by
  obtain ⟨p1, e1, _, _⟩ := closed_form hD h₁ ha
  obtain ⟨p2, e2, _, _⟩ := closed_form hD h₂ ha
  have hus : ∀ c, c ∈ usable obs₁.flatten a → c ∈ usable obs₂.flatten a := by
    intro c; rw [mem_usable, mem_usable]; rintro ⟨k1, k2⟩; exact ⟨hsub c k1, k2⟩
  have hne := observed_iff_usable.mp ho
  have heff : (L₁.dom.act a).eff ⊆ (L₂.dom.act a).eff := by
    intro l; rw [e1 hc, e2 hc]; rintro ⟨c, k1, k2⟩; exact ⟨c, hus c k1, k2⟩
  refine ⟨?_, heff, ?_⟩
  · intro l; rw [p1, p2]
    rintro ⟨(⟨_, k⟩ | ⟨k, _⟩), k3⟩
    · refine ⟨Or.inl ⟨hne, fun c hc => k c (hus c hc)⟩, ?_⟩
      rcases k3 with k3 | k3 | ⟨k3, k4⟩
      · exact Or.inl k3
      · exact Or.inr (Or.inl k3)
      · exact Or.inr (Or.inr ⟨k3, fun k => k4 (heff k)⟩)
    · obtain ⟨c, hc'⟩ := List.exists_mem_of_ne_nil _ hne
      have := hus c hc'; rw [k] at this; simp at this
  · intro q; rw [ineq_form hD h₁ ha, ineq_form hD h₂ ha]
    rintro ⟨k1, k2⟩; exact ⟨k1, fun c hc => k2 c (hsub c hc)⟩

/-- **C07.** With the default policy an action without a usable observation can never be applied, in
any state, under any substitution, provided some well-typed literal over its parameters exists. -/
theorem C07_unobserved_never_applicable (hD : WFDomain D) (h : (Learner.init D .noRemove inj).learn obs = .ok (L', rep))
    {a : String} (ha : a ∈ D.names) (hu : ¬ Observed obs a)
    (hlit : ∃ l, TypedLit D.preds ((D.act a).sig ++ D.consts) l) (ρ : String → String) (s : State) :
    ¬ applicable (L'.dom.act a).pre ρ s := by
  obtain ⟨p1, _⟩ := closed_form hD h ha
  rw [observed_iff_usable, ne_eq, not_not] at hu
  obtain ⟨l, hl⟩ := hlit
  intro happ
  have mem : ∀ m, TypedLit D.preds ((D.act a).sig ++ D.consts) m → m ∈ (L'.dom.act a).pre := fun m hm =>
    (p1 m).mpr ⟨Or.inr ⟨hu, (liftedVocab_typed (hD.sigs a ha)).mpr hm⟩, Or.inr (Or.inl rfl)⟩
  have k1 := happ l (mem l hl)
  have k2 := happ l.neg (mem _ (typed_neg.mpr hl))
  rw [ground_neg] at k2
  exact holds_neg.mp k2 k1

theorem process_filter (L : Learner) (cs : List Component) :
    L.processComponents cs = L.processComponents (cs.filter (·.success)) := by
  induction cs generalizing L with
  | nil => rfl
  | cons c cs ih =>
    cases hc : c.success with
    | true =>
      rw [List.filter_cons_of_pos hc]
      simp only [Learner.processComponents, List.foldlM_cons, hc, if_true]
      cases L.handleComponent c with
      | error e => rfl
      | ok L1 => exact ih L1
    | false =>
      rw [List.filter_cons_of_neg (by simp [hc])]
      simp only [Learner.processComponents, List.foldlM_cons, hc]
      exact ih L

/-- **C08, failed transitions.** Deleting all unsuccessful transitions from the data changes nothing at
all: same result (or same error), same learner, same report; for any learner state. -/
theorem C08_failures_ignored (L : Learner) (obs : List (List Component)) :
    L.learn obs = L.learn (obs.map fun o => o.filter (·.success)) := by
  unfold Learner.learn
  have e : (obs.map fun o => o.filter (·.success)).flatten = obs.flatten.filter (·.success) := by
    rw [List.filter_flatten]
  rw [e]
  simp only
  rw [← process_filter]

/-- **C08, repeated objects.** Deleting all transitions whose call repeats an object changes neither
the preconditions nor the effects of any action, nor which actions count as observed. -/
theorem C08_duplicates_ignored (hD : WFDomain D)
    (h₁ : (Learner.init D p inj).learn obs = .ok (L₁, rep₁))
    (h₂ : (Learner.init D p inj).learn (obs.map fun o => o.filter (fun c => decide c.call.params.Nodup)) = .ok (L₂, rep₂)) :
    (∀ a ∈ D.names, (L₁.dom.act a).pre = (L₂.dom.act a).pre ∧ (L₁.dom.act a).eff = (L₂.dom.act a).eff) ∧
    ∀ a, a ∈ L₁.observed ↔ a ∈ L₂.observed := by
  obtain ⟨l1, _⟩ := learn_spec (L0 := Learner.init D p inj) hD.names (init_sigs D _ inj) h₁
  obtain ⟨l2, _⟩ := learn_spec (L0 := Learner.init D p inj) hD.names (init_sigs D _ inj) h₂
  have hu : ∀ a, usable (obs.map fun o => o.filter (fun c => decide c.call.params.Nodup)).flatten a = usable obs.flatten a := by
    intro a
    have e : (obs.map fun o => o.filter (fun c => decide c.call.params.Nodup)).flatten =
        obs.flatten.filter (fun c => decide c.call.params.Nodup) := by rw [List.filter_flatten]
    rw [e]
    unfold usable
    rw [List.filter_filter]
    apply List.filter_congr
    intro c _
    by_cases hd : c.call.params.Nodup
    · simp [hd, containsDuplicates_false.mpr hd]
    · simp [hd, containsDuplicates_iff.mpr hd]
  have hex := l2.effExact
  simp only [hu] at hex
  have heq : ∀ a, (L₁.dom.act a).eff = (L₂.dom.act a).eff := by
    intro a
    have e := (l1.effExact a).trans (hex a).symm
    simp only [Prod.mk.injEq] at e; exact e.2.1
  refine ⟨fun a ha => ⟨?_, heq a⟩, fun a => ?_⟩
  · ext l
    rw [l1.pre a ha, l2.pre a ha, hu, heq]
  · rw [l1.observed, l2.observed, hu]

/-- **C09.** What each policy does: effects and inequality preconditions are those of the default
policy; `hard` keeps exactly the positive preconditions; `soft` drops exactly the negative literals
whose atom is an add effect of the action. -/
theorem C09_policy_exact {Lh Ls Ln : Learner} {rh rs rn} (hD : WFDomain D)
    (hh : (Learner.init D .hard inj).learn obs = .ok (Lh, rh)) (hs : (Learner.init D .soft inj).learn obs = .ok (Ls, rs))
    (hn : (Learner.init D .noRemove inj).learn obs = .ok (Ln, rn)) {a : String} (ha : a ∈ D.names) :
    ((Lh.dom.act a).eff = (Ln.dom.act a).eff ∧ (Lh.dom.act a).ineq = (Ln.dom.act a).ineq ∧
      ∀ l, l ∈ (Lh.dom.act a).pre ↔ l ∈ (Ln.dom.act a).pre ∧ l.pos = true) ∧
    ((Ls.dom.act a).eff = (Ln.dom.act a).eff ∧ (Ls.dom.act a).ineq = (Ln.dom.act a).ineq ∧
      ∀ l, l ∈ (Ls.dom.act a).pre ↔ l ∈ (Ln.dom.act a).pre ∧ ¬ (l.pos = false ∧ l.neg ∈ (Ln.dom.act a).eff)) := by
  obtain ⟨a1, a2, a3⟩ := policy_factor hD.names hh hn a ha
  obtain ⟨b1, b2, b3⟩ := policy_factor hD.names hs hn a ha
  refine ⟨⟨a1, a2, fun l => ?_⟩, ⟨b1, b2, fun l => ?_⟩⟩
  · rw [a3]; simp [polKeep]
  · rw [b3]; unfold polKeep
    cases l.pos <;> simp

/-- **C10.** Inequality preconditions are exact: `(x, y)` is one iff `x` comes before `y` in the
signature, both have the same type, and no successful call bound them to one object. -/
theorem C10_inequalities_exact (hD : WFDomain D) (h : (Learner.init D p true).learn obs = .ok (L', rep))
    {a : String} (ha : a ∈ D.names)
    (hlen : ∀ c ∈ obs.flatten, c.success = true → c.call.name = a → c.call.params.length = (D.act a).sig.length)
    (x y : String) :
    (x, y) ∈ (L'.dom.act a).ineq ↔
      (∃ tx ty : PType, [(x, tx), (y, ty)].Sublist (D.act a).sig ∧ tx.name = ty.name) ∧
      ∀ c ∈ obs.flatten, c.success = true → c.call.name = a →
        subst (Sig.names (D.act a).sig) c.call.params x ≠ subst (Sig.names (D.act a).sig) c.call.params y := by
  rw [ineq_form hD h ha, mem_sameTypePairs]
  simp only [true_and]
  have hp := (hD.sigs a ha).params
  apply and_congr_right
  rintro ⟨tx, ty, hs, _⟩
  have hsub : [x, y].Sublist (Sig.names (D.act a).sig) := by simpa [Sig.names] using hs.map Prod.fst
  have hxy : x ≠ y := by
    have := hsub.nodup hp
    simpa using this
  constructor
  · intro k c hc hcs hca e
    have hl := hlen c hc hcs hca
    have hnd : ¬ c.call.params.Nodup := fun hnd => hxy
      (bind_inj_params hp (by simp [hl]) hnd (hsub.subset (by simp)) (hsub.subset (by simp)) e)
    exact k c hc hcs hca hnd ((mem_duplicatePairs hp hl).mpr ⟨hsub, e⟩)
  · intro k c hc hcs hca _ hm
    exact k c hc hcs hca ((mem_duplicatePairs hp (hlen c hc hcs hca)).mp hm).2

/-- C10: without the injectivity option there are no inequality preconditions. -/
theorem C10_option_off (hD : WFDomain D) (h : (Learner.init D p false).learn obs = .ok (L', rep))
    {a : String} (ha : a ∈ D.names) : (L'.dom.act a).ineq = ∅ := by
  ext q; rw [ineq_form hD h ha]; simp

/-- **C11.** The report has one entry per action of the domain, `UNOBSERVED` exactly for the actions
without usable observation and `NOT SAFE` for all the others; this learner never reports `OK`. -/
theorem C11_report_exact (hD : WFDomain D) (h : (Learner.init D p inj).learn obs = .ok (L', rep)) :
    (rep.map Prod.fst).Nodup ∧ (∀ a, a ∈ rep.map Prod.fst ↔ a ∈ D.names) ∧
    ∀ a ∈ D.names, ((a, Status.unobserved) ∈ rep ↔ ¬ Observed obs a) ∧ ((a, Status.notSafe) ∈ rep ↔ Observed obs a) ∧
      (a, Status.ok) ∉ rep := by
  obtain ⟨h1, h2⟩ := report_form hD h
  refine ⟨h1, fun a => ?_, fun a ha => ?_⟩
  · rw [List.mem_map]
    constructor
    · rintro ⟨⟨b, st⟩, hb, rfl⟩; exact ((h2 b st).mp hb).1
    · intro ha
      by_cases ho : a ∈ L'.observed
      · exact ⟨(a, .notSafe), (h2 _ _).mpr ⟨ha, Or.inl ⟨rfl, ho⟩⟩, rfl⟩
      · exact ⟨(a, .unobserved), (h2 _ _).mpr ⟨ha, Or.inr ⟨rfl, ho⟩⟩, rfl⟩
  · have ho := (closed_form hD h ha).2.2.1
    rw [← observed_iff_usable] at ho
    simp only [h2, ← ho]
    simp [ha]

end

/-! #### The hypotheses can be met, and the conclusions are not trivial -/

/-- C05: regrouped, reordered, duplicated data with the same successful transitions. -/
example : ∀ c : Component, c.success = true →
    (c ∈ World.obs.flatten ↔ c ∈ ([[World.c2, World.c1, World.c2]] : List (List Component)).flatten) := by
  intro c hc
  simp only [World.obs, List.flatten_cons, List.flatten_nil, List.cons_append, List.nil_append, List.append_nil,
    List.mem_cons, List.not_mem_nil, or_false]
  constructor
  · rintro (h | h | h)
    · exact Or.inr (Or.inl h)
    · subst h; simp [World.c3] at hc
    · exact Or.inl h
  · rintro (h | h | h)
    · exact Or.inr (Or.inr h)
    · exact Or.inl h
    · exact Or.inr (Or.inr h)

/-- C06: the second observation really removes a precondition. -/
example : Observed [[World.c1]] "move" ∧
    (⟨"painted", ["?o"], false⟩ : Lit) ∈ ((runLearn (Learner.init World.D) [[World.c1]]).dom.act "move").pre ∧
    (⟨"painted", ["?o"], false⟩ : Lit) ∉ ((runLearn (Learner.init World.D) World.obs).dom.act "move").pre :=
  ⟨⟨World.c1, by decide +kernel⟩, by decide +kernel, by decide +kernel⟩

/-- C07: "paint" is unobserved in the world and has a literal. -/
example : ¬ Observed World.obs "paint" ∧ ∃ l, TypedLit World.D.preds ((World.D.act "paint").sig ++ World.D.consts) l := by
  refine ⟨?_, _, World.typed_painted true⟩
  rintro ⟨c, hc, hs, hn, _⟩
  simp only [World.obs, List.flatten_cons, List.flatten_nil, List.cons_append, List.nil_append, List.append_nil,
      List.mem_cons, List.not_mem_nil, or_false] at hc
  rcases hc with rfl | rfl | rfl
  · simp [World.c1] at hn
  · simp [World.c3] at hs
  · simp [World.c2] at hn

/-- C08, C10: with a duplicated call the inequality is dropped, everything else is as without it. -/
example : let cd : Component := ⟨World.s0, ⟨"move", ["b", "l1", "l1"]⟩, World.s0, true⟩
    ("?x", "?y") ∈ ((runLearn (Learner.init World.D) World.obs).dom.act "move").ineq ∧
    ("?x", "?y") ∉ ((runLearn (Learner.init World.D) (World.obs ++ [[cd]])).dom.act "move").ineq := by
  decide +kernel

/-- C09: the three policies give three different results on the world's data. -/
example : (⟨"at", ["?o", "?y"], false⟩ : Lit) ∈ ((runLearn (Learner.init World.D .noRemove) World.obs).dom.act "move").pre ∧
    (⟨"at", ["?o", "?y"], false⟩ : Lit) ∉ ((runLearn (Learner.init World.D .soft) World.obs).dom.act "move").pre ∧
    (⟨"painted", ["?o"], false⟩ : Lit) ∈ ((runLearn (Learner.init World.D .soft) World.obs).dom.act "paint").pre ∧
    (⟨"painted", ["?o"], false⟩ : Lit) ∉ ((runLearn (Learner.init World.D .hard) World.obs).dom.act "paint").pre := by
  decide +kernel

/-- C11: the world's report. -/
example : (match (Learner.init World.D).learn World.obs with | .ok r => r.2 | .error _ => []) =
    [("move", .notSafe), ("paint", .unobserved)] := by decide +kernel

end Props
