import Verif.Props.SamLimits

/-! C12: what several calls of `learn_action_model` on one learner give, exactly, compared with one
call on all the batches (domains without constants). -/
namespace Props
open Model Spec

namespace SamCalls

/-- A list of usable observations explains the preconditions of an action after several calls: `first`
says that the first call already had one. -/
def CallsForm (D : Domain) (sig : Sig) (first : Prop) (us : List Component) (l : Lit) : Prop :=
  (first → ∀ c ∈ us, l ∈ obsPrev D c) ∧
  (¬ first → (l ∈ liftedVocab D sig ∨ ∃ c ∈ us.head?, l ∈ obsPrev D c) ∧ ∀ c ∈ us.tail, l ∈ obsPrev D c)

/-- The state of a learner after some calls; `h0` is the data of the first call and `hs` all data. -/
structure After (D : Domain) (p : Policy) (inj : Bool) (h0 hs : List Component) (L : Learner) : Prop where
  static : SameStatic D L.dom
  policy : L.policy = p
  injective : L.injective = inj
  sigs : ∀ q ∈ L.sigs, q.1 ∈ L.dom.names
  safe : L.safe = []
  observed : ∀ a, a ∈ L.observed ↔ usable hs a ≠ []
  eff : ∀ a ∈ D.names, ∀ l, l ∈ (L.dom.act a).eff ↔ ∃ c ∈ usable hs a, l ∈ obsEff D c
  pre : ∀ a ∈ D.names, ∀ l, l ∈ (L.dom.act a).pre ↔
    CallsForm D (D.act a).sig (usable h0 a ≠ []) (usable hs a) l ∧ polKeep p (L.dom.act a).eff l
  ineqSub : ∀ a ∈ D.names, ∀ q ∈ (L.dom.act a).ineq, inj = true ∧ q ∈ sameTypePairs (D.act a).sig

theorem polKeep_mono {p : Policy} {E F : Finset Lit} {l : Lit} (hs : E ⊆ F) (h : polKeep p F l) : polKeep p E l := by
  rcases h with h | h | ⟨h1, h2⟩
  · exact Or.inl h
  · exact Or.inr (Or.inl h)
  · exact Or.inr (Or.inr ⟨h1, fun k => h2 (hs k)⟩)

theorem mem_report {M : Learner} (hs : M.safe = []) (hn : M.dom.names.Nodup) {a : String} {st : Status} :
    (a, st) ∈ M.report ↔ a ∈ M.dom.names ∧ ((st = .notSafe ∧ a ∈ M.observed) ∨ (st = .unobserved ∧ a ∉ M.observed)) := by
  have hnd : (((M.dom.names.filter (· ∈ M.observed.toFinset \ (∅ : Finset String))).map (·, Status.notSafe)
    ++ (M.dom.names.filter (· ∈ M.dom.names.toFinset \ M.observed.toFinset)).map (·, Status.unobserved)).map Prod.fst).Nodup := by
    rw [List.map_append, List.map_map, List.map_map]
    have e1 : (Prod.fst ∘ fun x : String => (x, Status.notSafe)) = id := rfl
    have e2 : (Prod.fst ∘ fun x : String => (x, Status.unobserved)) = id := rfl
    rw [e1, e2, List.map_id, List.map_id, List.nodup_append]
    refine ⟨hn.filter _, hn.filter _, ?_⟩
    rintro x hx y hy rfl
    simp only [List.mem_filter, Finset.mem_sdiff, decide_eq_true_eq] at hx hy
    exact hy.2.2 hx.2.1
  have hrep : M.report = (M.dom.names.filter (· ∈ M.observed.toFinset \ (∅ : Finset String))).map (·, Status.notSafe)
    ++ (M.dom.names.filter (· ∈ M.dom.names.toFinset \ M.observed.toFinset)).map (·, Status.unobserved) := by
    unfold Learner.report
    simp only [hs, List.map_nil, List.nil_append, List.toFinset_nil]
    exact Py.dictOf_of_nodup hnd
  rw [hrep]
  simp only [List.mem_append, List.mem_map, List.mem_filter, Finset.mem_sdiff, decide_eq_true_eq, List.mem_toFinset,
    Finset.notMem_empty, not_false_eq_true, and_true, Prod.mk.injEq]
  constructor
  · rintro (⟨b, ⟨h1, h2⟩, rfl, rfl⟩ | ⟨b, ⟨h1, _, h2⟩, rfl, rfl⟩)
    · exact ⟨h1, Or.inl ⟨rfl, h2⟩⟩
    · exact ⟨h1, Or.inr ⟨rfl, h2⟩⟩
  · rintro ⟨h1, ⟨rfl, h2⟩ | ⟨rfl, h2⟩⟩
    · exact Or.inl ⟨a, ⟨h1, h2⟩, rfl, rfl⟩
    · exact Or.inr ⟨a, ⟨h1, h1, h2⟩, rfl, rfl⟩

variable {D : Domain} {p : Policy} {inj : Bool} {L L' : Learner} {rep : List (String × Status)}

theorem After.first (hD : WFDomain D) (hc : D.consts = []) {b : List (List Component)}
    (h : (Learner.init D p inj).learn b = .ok (L', rep)) : After D p inj b.flatten b.flatten L' := by
  obtain ⟨hl, _⟩ := learn_spec (L0 := Learner.init D p inj) hD.names (init_sigs D _ inj) h
  refine ⟨hl.static, hl.policy, hl.injective, ?_, hl.safe, ?_, ?_, ?_, ?_⟩
  · intro q hq
    rw [hl.sigs] at hq
    rw [hl.static.names]
    exact init_sigs D p inj q hq
  · intro a; rw [hl.observed]; simp [Learner.init]
  · intro a ha; exact (closed_form hD h ha).2.1 hc
  · intro a ha l
    rw [(closed_form hD h ha).1 l]
    apply and_congr_left; intro _
    unfold CallsForm
    by_cases hu : usable b.flatten a = []
    · simp [hu]
    · simp [hu]
  · intro a ha q hq; exact ((ineq_form hD h ha q).mp hq).1

theorem After.next (hD : WFDomain D) (hc : D.consts = []) {h0 hs : List Component} (hA : After D p inj h0 hs L)
    (hsub : ∀ a, usable h0 a ≠ [] → usable hs a ≠ [])
    {b : List (List Component)} (h : L.learn b = .ok (L', rep)) :
    After D p inj h0 (hs ++ b.flatten) L' ∧
    (∀ a ∈ D.names, ∀ q, q ∈ (L'.dom.act a).ineq ↔ (inj = true ∧ q ∈ sameTypePairs (D.act a).sig) ∧
      ∀ c ∈ b.flatten, c.success = true → c.call.name = a → ¬ c.call.params.Nodup →
        q ∉ duplicatePairs (D.act a).sig c.call.params) := by
  have hn : L.dom.names = D.names := hA.static.names
  obtain ⟨hl, _⟩ := learn_spec (by rw [hn]; exact hD.names) hA.sigs h
  have hcL : L.dom.consts = [] := by rw [hA.static.consts, hc]
  have heff : ∀ a ∈ D.names, ∀ l, l ∈ (L'.dom.act a).eff ↔ ∃ c ∈ usable (hs ++ b.flatten) a, l ∈ obsEff D c := by
    intro a ha l
    rw [usable_append]
    constructor
    · intro k
      rcases hl.effSub a l k with k | ⟨c, k1, k2⟩
      · obtain ⟨c, k1, k2⟩ := (hA.eff a ha l).mp k
        exact ⟨c, by simp [k1], k2⟩
      · rw [obsEff_static hA.static] at k2
        exact ⟨c, by simp [k1], k2⟩
    · rintro ⟨c, k1, k2⟩
      refine hl.effSup a l ?_ (Or.inl hcL)
      rcases List.mem_append.mp k1 with k1 | k1
      · exact Or.inl ((hA.eff a ha l).mpr ⟨c, k1, k2⟩)
      · refine Or.inr ⟨c, k1, ?_⟩
        rw [obsEff_static hA.static]; exact k2
  have hineq : ∀ a ∈ D.names, ∀ q, q ∈ (L'.dom.act a).ineq ↔ (inj = true ∧ q ∈ sameTypePairs (D.act a).sig) ∧
      ∀ c ∈ b.flatten, c.success = true → c.call.name = a → ¬ c.call.params.Nodup →
        q ∉ duplicatePairs (D.act a).sig c.call.params := by
    intro a ha q
    rw [hl.ineq, hA.static.sig, hA.injective, hn]
    apply and_congr_left; intro _
    constructor
    · rintro (k | ⟨k1, _, k2⟩)
      · exact hA.ineqSub a ha q k
      · exact ⟨k1, k2⟩
    · rintro ⟨k1, k2⟩; exact Or.inr ⟨k1, ha, k2⟩
  refine ⟨⟨hA.static.trans hl.static, by rw [hl.policy, hA.policy], by rw [hl.injective, hA.injective], ?_,
    by rw [hl.safe, hA.safe], ?_, heff, ?_, fun a ha q hq => ((hineq a ha q).mp hq).1⟩, hineq⟩
  · intro q hq
    rw [hl.sigs] at hq
    rw [hl.static.names]
    exact hA.sigs q hq
  · intro a; rw [hl.observed, hA.observed, usable_append]; simp; tauto
  · intro a ha l
    have hes : (L.dom.act a).eff ⊆ (L'.dom.act a).eff := by
      intro x hx
      exact hl.effSup a x (Or.inl hx) (Or.inl hcL)
    rw [hl.pre a (hn ▸ ha), hA.policy]
    apply and_congr_left; intro hk
    have hk0 := polKeep_mono hes hk
    have hP := hA.pre a ha l
    have hob := hA.observed a
    rw [usable_append]
    unfold PreForm
    simp only [obsPrev_static hA.static, liftedVocab_static hA.static, hA.static.sig, hob, hP, hk0, and_true]
    unfold CallsForm
    by_cases h1 : usable hs a = []
    · have h2 : usable h0 a = [] := by
        by_contra k; exact hsub a k h1
      cases h3 : usable b.flatten a with
      | nil => simp [h1, h2]
      | cons c cs => simp [h1, h2]
    · obtain ⟨c, cs, hcs⟩ := List.exists_cons_of_ne_nil h1
      rw [hcs]
      by_cases h2 : usable h0 a = []
      · simp [h2, or_imp, forall_and, and_assoc]
      · simp [h2, or_imp, forall_and, and_assoc]

/-- All calls after the first. -/
theorem After.many (hD : WFDomain D) (hc : D.consts = []) {h0 : List Component} :
    ∀ (bs : List (List (List Component))) (hs : List Component) (L L' : Learner), After D p inj h0 hs L →
      (∀ a, usable h0 a ≠ [] → usable hs a ≠ []) →
      learnMany L bs = .ok L' → After D p inj h0 (hs ++ bs.flatten.flatten) L' ∧
      (∀ b ∈ bs.getLast?, ∀ a ∈ D.names, ∀ q, q ∈ (L'.dom.act a).ineq ↔ (inj = true ∧ q ∈ sameTypePairs (D.act a).sig) ∧
        ∀ c ∈ b.flatten, c.success = true → c.call.name = a → ¬ c.call.params.Nodup →
          q ∉ duplicatePairs (D.act a).sig c.call.params) := by
  intro bs
  induction bs with
  | nil =>
    intro hs L L' hA _ h
    simp only [learnMany, Except.ok.injEq] at h
    subst h
    exact ⟨by simpa using hA, by simp⟩
  | cons b bs ih =>
    intro hs L L' hA hsub h
    simp only [learnMany, Bind.bind, Except.bind] at h
    cases hb : L.learn b with
    | error e => rw [hb] at h; simp at h
    | ok r =>
      rw [hb] at h
      obtain ⟨r1, r2⟩ := r
      obtain ⟨hA', hi⟩ := hA.next hD hc hsub hb
      have hsub' : ∀ a, usable h0 a ≠ [] → usable (hs ++ b.flatten) a ≠ [] := by
        intro a k; rw [usable_append]; simp [hsub a k]
      obtain ⟨g1, g2⟩ := ih _ _ _ hA' hsub' h
      refine ⟨by simpa [List.append_assoc] using g1, ?_⟩
      cases bs with
      | nil =>
        simp only [learnMany, Except.ok.injEq] at h
        subst h
        intro b' hb'
        simp only [List.getLast?_singleton, Option.mem_def, Option.some.injEq] at hb'
        subst hb'
        exact hi
      | cons b2 bs => simpa using g2

theorem after_all (hD : WFDomain D) (hc : D.consts = []) {b : List (List Component)} {bs : List (List (List Component))}
    (h : learnMany (Learner.init D p inj) (b :: bs) = .ok L') :
    After D p inj b.flatten ((b :: bs).flatten.flatten) L' ∧
      (∀ x ∈ (b :: bs).getLast?, ∀ a ∈ D.names, ∀ q, q ∈ (L'.dom.act a).ineq ↔ (inj = true ∧ q ∈ sameTypePairs (D.act a).sig) ∧
        ∀ c ∈ x.flatten, c.success = true → c.call.name = a → ¬ c.call.params.Nodup →
          q ∉ duplicatePairs (D.act a).sig c.call.params) := by
  simp only [learnMany, Bind.bind, Except.bind] at h
  cases hb : (Learner.init D p inj).learn b with
  | error e => rw [hb] at h; simp at h
  | ok r =>
    rw [hb] at h
    obtain ⟨r1, r2⟩ := r
    obtain ⟨g1, g2⟩ := (After.first hD hc hb).many hD hc bs _ _ _ (fun _ k => k) h
    refine ⟨by simpa using g1, ?_⟩
    cases bs with
    | nil =>
      simp only [learnMany, Except.ok.injEq] at h
      subst h
      intro x hx a ha q
      simp only [List.getLast?_singleton, Option.mem_def, Option.some.injEq] at hx
      subst hx
      exact ineq_form hD hb ha q
    | cons b2 bs => simpa using g2

end SamCalls

section
open SamCalls
variable {D : Domain} {truth : String → Schema} {p : Policy} {inj : Bool} {L L' Ll : Learner}
  {rep repl : List (String × Status)} {b : List (List Component)} {bs : List (List (List Component))}

/-- **C12 (success).** Several calls succeed exactly when the one call on all batches does: when every
successful transition is labelled with an action of the domain. -/
theorem C12_calls_succeed_iff (hD : WFDomain D) (hc : D.consts = []) :
    (∃ L', learnMany (Learner.init D p inj) (b :: bs) = .ok L') ↔
    (∃ r, (Learner.init D p inj).learn (b :: bs).flatten = .ok r) := by
  rw [learn_ok_iff (L0 := Learner.init D p inj) hD.names (init_sigs D p inj)]
  have key : ∀ (bs : List (List (List Component))) (h0 hs : List Component) (L : Learner), After D p inj h0 hs L →
      (∀ a, usable h0 a ≠ [] → usable hs a ≠ []) →
      ((∃ L', learnMany L bs = .ok L') ↔ ∀ c ∈ bs.flatten.flatten, c.success = true → c.call.name ∈ D.names) := by
    intro bs
    induction bs with
    | nil => intro h0 hs L _ _; simp [learnMany]
    | cons x bs ih =>
      intro h0 hs L hA hsub
      have hn : L.dom.names = D.names := hA.static.names
      have hx := learn_ok_iff (L0 := L) (obs := x) (by rw [hn]; exact hD.names) hA.sigs
      rw [hn] at hx
      simp only [learnMany, Bind.bind, Except.bind]
      cases hb : L.learn x with
      | error e =>
        simp only [reduceCtorEq, exists_false, false_iff]
        intro k
        rw [hb] at hx
        have := hx.mpr fun c hc => k c (by simp only [List.flatten_cons, List.flatten_append, List.mem_append]; exact Or.inl hc)
        simp at this
      | ok r =>
        have hA' := (hA.next hD hc hsub hb).1
        have hx' := hx.mp ⟨r, hb⟩
        dsimp only
        rw [ih _ _ _ hA' (by intro a k; rw [usable_append]; simp [hsub a k])]
        simp only [List.flatten_cons, List.flatten_append, List.mem_append]
        constructor
        · rintro k c (hc | hc)
          · exact hx' c hc
          · exact k c hc
        · intro k c hc; exact k c (Or.inr hc)
  have h1 := learn_ok_iff (L0 := Learner.init D p inj) (obs := b) hD.names (init_sigs D p inj)
  simp only [learnMany, Bind.bind, Except.bind]
  cases hb : (Learner.init D p inj).learn b with
  | error e =>
    simp only [reduceCtorEq, exists_false, false_iff]
    intro k
    rw [hb] at h1
    have := h1.mpr fun c hc => k c (by simp only [List.flatten_cons, List.flatten_append, List.mem_append]; exact Or.inl hc)
    simp at this
  | ok r =>
    have hx' := h1.mp ⟨r, hb⟩
    dsimp only
    rw [key _ _ _ _ (After.first hD hc hb) (fun _ k => k)]
    simp only [List.flatten_cons, List.flatten_append, List.mem_append]
    constructor
    · rintro k c (hc | hc)
      · exact hx' c hc
      · exact k c hc
    · intro k c hc; exact k c (Or.inr hc)

/-- **C12 (equal).** Any number of calls, any policy: an action that the first batch observes, or that
no batch observes, has the preconditions, the effects and the signature of learning from all batches at
once; the effects and the report are equal for all actions. -/
theorem C12_calls_equal (hD : WFDomain D) (hc : D.consts = [])
    (h : learnMany (Learner.init D p inj) (b :: bs) = .ok L')
    (h1 : (Learner.init D p inj).learn (b :: bs).flatten = .ok (L, rep)) :
    (∀ a ∈ D.names, (L'.dom.act a).eff = (L.dom.act a).eff ∧ (L'.dom.act a).sig = (L.dom.act a).sig ∧
      ((Observed b a ∨ ¬ Observed (b :: bs).flatten a) → (L'.dom.act a).pre = (L.dom.act a).pre)) ∧
    (∀ e, e ∈ L'.report ↔ e ∈ rep) := by
  obtain ⟨hA, _⟩ := after_all hD hc h
  have hB := After.first hD hc h1
  have heff : ∀ a ∈ D.names, (L'.dom.act a).eff = (L.dom.act a).eff := by
    intro a ha; ext l; rw [hA.eff a ha, hB.eff a ha]
  refine ⟨fun a ha => ⟨heff a ha, ?_, ?_⟩, ?_⟩
  · rw [hA.static.sig, hB.static.sig]
  · intro hob
    ext l
    rw [hA.pre a ha, hB.pre a ha, heff a ha]
    apply and_congr_left; intro _
    unfold CallsForm
    rw [observed_iff_usable, observed_iff_usable] at hob
    rcases hob with k | k
    · have k2 : usable ((b :: bs).flatten.flatten) a ≠ [] := by
        simp only [List.flatten_cons, List.flatten_append, usable_append]; simp [k]
      generalize usable ((b :: bs).flatten.flatten) a = us at k2
      simp [k, k2]
    · rw [not_not] at k
      have k2 : usable b.flatten a = [] := by
        simp only [List.flatten_cons, List.flatten_append, usable_append, List.append_eq_nil_iff] at k
        exact k.1
      generalize usable ((b :: bs).flatten.flatten) a = us at k
      simp [k, k2]
  · have hr : rep = L.report := (learn_spec (L0 := Learner.init D p inj) hD.names (init_sigs D _ inj) h1).2
    rintro ⟨a, st⟩
    rw [hr, mem_report hA.safe (hA.static.names ▸ hD.names), mem_report hB.safe (hB.static.names ▸ hD.names), hA.observed, hB.observed, hA.static.names, hB.static.names]

/-- **C12 (late).** An action that the first batch does not observe loses its first usable observation:
its preconditions after all calls are those of learning at once without that observation. -/
theorem C12_calls_late (hD : WFDomain D) (hc : D.consts = [])
    (h : learnMany (Learner.init D .noRemove inj) (b :: bs) = .ok L') {a : String} (ha : a ∈ D.names)
    (hlen : ∀ c ∈ (b :: bs).flatten.flatten, c.success = true → c.call.name = a → c.call.params.length = (D.act a).sig.length)
    (hb : ¬ Observed b a) {xs ys : List Component} {c : Component} (hsplit : (b :: bs).flatten.flatten = xs ++ c :: ys)
    (hxs : ¬ Observed [xs] a) (hcs : c.success = true) (hca : c.call.name = a) (hcd : c.call.params.Nodup)
    (h1 : (Learner.init D .noRemove inj).learn [xs, ys] = .ok (L, rep)) :
    (L'.dom.act a).pre = (L.dom.act a).pre := by
  obtain ⟨hA, _⟩ := after_all hD hc h
  have hB := After.first hD hc h1
  rw [observed_iff_usable, not_not] at hb hxs
  simp only [List.flatten_cons, List.flatten_nil, List.append_nil] at hxs
  have e1 : usable ((b :: bs).flatten.flatten) a = c :: usable ys a := by
    rw [hsplit, usable_append, hxs, show c :: ys = [c] ++ ys from rfl, usable_append, usable_single_of hcs hca hcd]; rfl
  have e2 : usable ([xs, ys].flatten) a = usable ys a := by
    simp [usable_append, hxs]
  have hv : ∀ u ∈ c :: usable ys a, ∀ l ∈ obsPrev D u, l ∈ liftedVocab D (D.act a).sig := by
    intro u hu l hl
    rw [← e1, mem_usable] at hu
    obtain ⟨u1, u2, u3, u4⟩ := hu
    have hw := hD.sigs a ha
    subst u3
    rw [liftedVocab_typed hw]
    exact ((obsPrev_iff hw ⟨hlen u u1 u2 rfl, u4, by simp [hc, Sig.names]⟩).mp hl).1
  ext l
  rw [hA.pre a ha, hB.pre a ha, e1, e2, hb]
  have hk : ∀ E, polKeep .noRemove E l := fun E => Or.inr (Or.inl rfl)
  simp only [hk, and_true]
  unfold CallsForm
  cases hy : usable ys a with
  | nil =>
    simp
    exact fun k => hv c (by simp) l k
  | cons y ys' =>
    simp
    intro k1 k2
    exact Or.inl (hv y (by simp [hy]) l k1)

/-- C12 (late), the extreme case: if that observation is the only usable one, the action stays as
inapplicable as a never observed one, in every state. -/
theorem C12_calls_lost (hD : WFDomain D) (hc : D.consts = [])
    (h : learnMany (Learner.init D .noRemove inj) (b :: bs) = .ok L') {a : String} (ha : a ∈ D.names)
    (hb : ¬ Observed b a) {xs ys : List Component} {c : Component} (hsplit : (b :: bs).flatten.flatten = xs ++ c :: ys)
    (hxs : ¬ Observed [xs] a) (hys : ¬ Observed [ys] a) (hcs : c.success = true) (hca : c.call.name = a)
    (hcd : c.call.params.Nodup) {l : Lit} (hl : TypedLit D.preds ((D.act a).sig ++ D.consts) l)
    (ρ : String → String) (s : State) : ¬ applicable (L'.dom.act a).pre ρ s := by
  obtain ⟨hA, _⟩ := after_all hD hc h
  rw [observed_iff_usable, not_not] at hb hxs hys
  simp only [List.flatten_cons, List.flatten_nil, List.append_nil] at hxs hys
  have e1 : usable ((b :: bs).flatten.flatten) a = [c] := by
    rw [hsplit, usable_append, hxs, show c :: ys = [c] ++ ys from rfl, usable_append, usable_single_of hcs hca hcd, hys]; rfl
  have hin : ∀ l, TypedLit D.preds ((D.act a).sig ++ D.consts) l → l ∈ (L'.dom.act a).pre := by
    intro l hl
    rw [hA.pre a ha, e1, hb]
    refine ⟨⟨fun k => absurd rfl k, fun _ => ⟨Or.inl ((liftedVocab_typed (hD.sigs a ha)).mpr hl), by simp⟩⟩, Or.inr (Or.inl rfl)⟩
  intro happ
  have k1 := happ l (hin l hl)
  have k2 := happ l.neg (hin l.neg ⟨hl.1, hl.2⟩)
  rw [ground_neg] at k2
  exact holds_neg.mp k2 k1

/-- **C12 (inequalities).** After all calls the inequality preconditions are those learned from the last
batch alone: every call puts all of them back. -/
theorem C12_calls_inequalities (hD : WFDomain D) (hc : D.consts = [])
    (h : learnMany (Learner.init D p inj) (b :: bs) = .ok L') {last : List (List Component)}
    (hlast : (b :: bs).getLast? = some last)
    (h1 : (Learner.init D p inj).learn last = .ok (Ll, repl)) :
    ∀ a ∈ D.names, (L'.dom.act a).ineq = (Ll.dom.act a).ineq := by
  intro a ha
  ext q
  rw [(after_all hD hc h).2 last hlast a ha, ineq_form hD h1 ha]

end

/-- C12: the inequalities do differ from learning at once: the first batch shows that the two objects of
the action may be equal, the second call forgets it. -/
theorem C12_inequalities_not_one : ∃ (D : Domain) (truth : String → Schema) (b₁ b₂ : List (List Component))
    (L₂ L : Learner) (rep : List (String × Status)),
    ProblemOK D truth (b₁ ++ b₂) ∧ D.consts = [] ∧ Observed b₁ "act" ∧ learnMany (Learner.init D) [b₁, b₂] = .ok L₂ ∧
    (Learner.init D).learn (b₁ ++ b₂) = .ok (L, rep) ∧
    (L₂.dom.act "act").ineq = {("?x", "?y")} ∧ (L.dom.act "act").ineq = ∅ := by
  let sig : Sig := [("?x", Limits.o), ("?y", Limits.o)]
  let c := Limits.comp {Limits.A "p" ["a"], Limits.A "p" ["b"]} ["a", "b"] {Limits.A "p" ["b"]}
  let d := Limits.comp {Limits.A "p" ["a"]} ["a", "a"] {Limits.A "p" ["a"]}
  obtain ⟨rep, hr⟩ := runLearn_eq (D := Limits.dom [Limits.p1] [] sig) (p := .noRemove) (i := true) (obs := [[c, d]] ++ [[c]])
    (by decide) (by decide)
  exact ⟨Limits.dom [Limits.p1] [] sig, Limits.tru sig ∅ {Limits.P "?x" false, Limits.P "?y"}, [[c, d]], [[c]],
    runLearn (runLearn (Learner.init (Limits.dom [Limits.p1] [] sig)) [[c, d]]) [[c]], _, rep,
    by decide +kernel, rfl, ⟨c, by decide, by decide, by decide, by decide⟩, rfl, hr, by decide +kernel, by decide +kernel⟩

/-! #### The hypotheses can be met -/

/-- C12: calls on three batches and the calls at once both succeed; "move" is observed first, "paint" never. -/
example : WFDomain World.D ∧ World.D.consts = [] ∧
    (∃ r, (Learner.init World.D .soft true).learn [[World.c1, World.c3], [], [World.c2]] = .ok r) ∧
    (∃ L', learnMany (Learner.init World.D .soft true) [[[World.c1, World.c3]], [[]], [[World.c2]]] = .ok L') ∧
    Observed [[World.c1, World.c3]] "move" ∧ ¬ Observed ([[World.c1, World.c3], [], [World.c2]]) "paint" := by
  have h : ∃ r, (Learner.init World.D .soft true).learn [[World.c1, World.c3], [], [World.c2]] = .ok r := by
    rw [learn_ok_iff (L0 := Learner.init World.D .soft true) World.wfD.names (init_sigs World.D .soft true)]
    show ∀ c ∈ [World.c1, World.c3, World.c2], _
    simp only [List.mem_cons, List.not_mem_nil, or_false]
    rintro c (rfl | rfl | rfl) _ <;> (change _ ∈ World.D.names; decide)
  refine ⟨World.wfD, rfl, h, (C12_calls_succeed_iff World.wfD rfl).mpr h, ⟨World.c1, by decide, by decide, by decide, by decide⟩, ?_⟩
  rintro ⟨c, hc, h1, h2, _⟩
  change c ∈ [World.c1, World.c3, World.c2] at hc
  simp only [List.mem_cons, List.not_mem_nil, or_false] at hc
  rcases hc with rfl | rfl | rfl
  · exact absurd h2 (by decide)
  · exact absurd h1 (by decide)
  · exact absurd h2 (by decide)

/-- C12 (late) and (lost): "move" is not observed by the first batch. -/
example : ¬ Observed [[World.c3]] "move" ∧ [[[World.c3]], [[World.c1], [World.c2]]].flatten.flatten = [World.c3] ++ World.c1 :: [World.c2] ∧
    World.c1.success = true ∧ World.c1.call.name = "move" ∧ World.c1.call.params.Nodup ∧
    (∀ c ∈ [World.c3, World.c1, World.c2], c.success = true → c.call.name = "move" →
      c.call.params.length = (World.D.act "move").sig.length) ∧
    TypedLit World.D.preds ((World.D.act "move").sig ++ World.D.consts) ⟨"power", [], true⟩ := by
  refine ⟨?_, rfl, by decide, by decide, by decide, by decide, World.typed_power⟩
  rintro ⟨c, hc, h1, h2, _⟩
  change c ∈ [World.c3] at hc
  rw [List.mem_singleton.mp hc] at h1
  exact absurd h1 (by decide)

end Props
