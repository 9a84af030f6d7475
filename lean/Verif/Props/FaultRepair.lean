import Verif.Model.FaultRepair
import Verif.Lemmas.NumMatch
import Mathlib.Tactic.Linarith
import Mathlib.Algebra.Order.Ring.Int
import Mathlib.Data.Rat.Cast.Order

/-! C98, C99: observing plans on a faulty domain. -/
namespace Props
namespace Fault
open Model Model.Fault

section
variable {K : Type} [Field K] [LinearOrder K]

/-- The faulty state has the facts of every predicate of the valid state, and its fluents differ by
less than one. -/
def Agree (v w : FState K) : Prop :=
  (∀ p ∈ v.preds, w.preds.lookup p.1 = some p.2) ∧ ∀ p ∈ v.fluents, ∃ x, w.fluents.lookup p.1 = some x ∧ |p.2 - x| < 1

/-- The execution of a plan: its transitions. -/
inductive Steps {S : Type} (M : Machine S) : S → List Call → List (Comp S) → Prop
  | nil (s) : Steps M s [] []
  | cons {s s' c plan cs} (hn : c.name ∈ M.names) (h : M.apply c s = .ok s') (t : Steps M s' plan cs) :
      Steps M s (c :: plan) (⟨s, c, s'⟩ :: cs)

theorem factsSame_iff {v w : FState K} : factsSame v w = true ↔ ∀ p ∈ v.preds, w.preds.lookup p.1 = some p.2 := by
  unfold factsSame
  rw [List.all_eq_true]
  refine forall_congr' fun p => forall_congr' fun _ => ?_
  cases h : w.preds.lookup p.1 with
  | none => simp
  | some q => simp only [decide_eq_true_eq, Option.some.injEq]; exact eq_comm

theorem fluentsSame_true {w : FState K} {l : List (String × K)} :
    fluentsSame w l = .ok true ↔ ∀ p ∈ l, ∃ x, w.fluents.lookup p.1 = some x ∧ |p.2 - x| < 1 := by
  induction l with
  | nil => simp [fluentsSame]
  | cons p l ih =>
    unfold fluentsSame
    cases h : w.fluents.lookup p.1 with
    | none => simp [h]
    | some x =>
      simp only
      by_cases hx : 1 ≤ |p.2 - x|
      · rw [if_pos hx]
        constructor
        · intro k; simp at k
        · intro k
          obtain ⟨y, h1, h2⟩ := k p List.mem_cons_self
          rw [h] at h1
          cases h1
          exact absurd h2 (not_lt.mpr hx)
      · rw [if_neg hx, ih]
        simp only [List.mem_cons, forall_eq_or_imp, h, Option.some.injEq, exists_eq_left']
        exact ⟨fun k => ⟨not_le.mp hx, k⟩, fun k => k.2⟩

theorem fluentsSame_error {w : FState K} {l : List (String × K)} {e : Err} (h : fluentsSame w l = .error e) :
    e = .keyError ∧ ∃ p ∈ l, w.fluents.lookup p.1 = none := by
  induction l with
  | nil => simp [fluentsSame] at h
  | cons p l ih =>
    unfold fluentsSame at h
    cases hp : w.fluents.lookup p.1 with
    | none =>
      rw [hp] at h
      simp only at h
      exact ⟨(Except.error.inj h).symm, p, List.mem_cons_self, hp⟩
    | some x =>
      rw [hp] at h
      simp only at h
      split at h
      · cases h
      · obtain ⟨h1, q, hq, h2⟩ := ih h
        exact ⟨h1, q, List.mem_cons_of_mem _ hq, h2⟩

/-- C98: the comparison of two states. -/
theorem validate_iff {v w : FState K} : validate v w = .ok true ↔ Agree v w := by
  unfold validate Agree
  by_cases h : factsSame v w = true
  · rw [if_pos h, fluentsSame_true]
    exact ⟨fun k => ⟨factsSame_iff.mp h, k⟩, fun k => k.2⟩
  · rw [if_neg h]
    constructor
    · intro k; simp at k
    · intro k; exact absurd (factsSame_iff.mpr k.1) h

theorem validate_error {v w : FState K} {e : Err} (h : validate v w = .error e) :
    e = .keyError ∧ ∃ p ∈ v.fluents, w.fluents.lookup p.1 = none := by
  unfold validate at h
  split at h
  · exact fluentsSame_error h
  · cases h

open Classical in
/-- **C98.** When a plan is observed, the first result is the execution of the plan in the model; the
second lists, of the execution in the faulty domain, exactly the transitions whose resulting states
differ; the third is the action of the first of these. -/
theorem C98_observation {M F : Machine (FState K)} {s t : FState K} {plan : List Call} {vo fo : List (Comp (FState K))} {n : Option String}
    (h : observeLoop M F s t plan = .ok (vo, fo, n)) :
    ∃ fs, Steps M s plan vo ∧ Steps F t plan fs ∧
      fo = ((vo.zip fs).filter fun p => ¬ Agree p.1.next p.2.next).map Prod.snd ∧
      n = fo.head?.map (fun c => c.call.name) := by
  induction plan generalizing s t vo fo n with
  | nil =>
    unfold observeLoop at h
    have := Except.ok.inj h
    cases this
    exact ⟨[], .nil _, .nil _, rfl, rfl⟩
  | cons c plan ih =>
    unfold observeLoop at h
    split at h
    · cases h
    · rename_i hc
      push Not at hc
      simp only [Bind.bind, Except.bind] at h
      cases h1 : M.apply c s with
      | error e => rw [h1] at h; cases h
      | ok s' =>
        cases h2 : F.apply c t with
        | error e => rw [h1, h2] at h; cases h
        | ok t' =>
          cases h3 : validate s' t' with
          | error e => rw [h1, h2] at h; simp only [h3] at h; cases h
          | ok same =>
            cases h4 : observeLoop M F s' t' plan with
            | error e => rw [h1, h2] at h; simp only [h3, h4] at h; cases h
            | ok r =>
              obtain ⟨vo', fo', n'⟩ := r
              rw [h1, h2] at h
              simp only [h3, h4] at h
              have h := Except.ok.inj h
              obtain ⟨fs, i1, i2, i3, i4⟩ := ih h4
              have e1 := congrArg Prod.fst h
              have e2 := congrArg (fun x => x.2.1) h
              have e3 := congrArg (fun x => x.2.2) h
              dsimp only at e1 e2 e3
              refine ⟨⟨t, c, t'⟩ :: fs, ?_, .cons hc.2 h2 i2, ?_⟩
              · rw [← e1]; exact .cons hc.1 h1 i1
              · subst e1 e2 e3
                cases same with
                | true =>
                  have ha : Agree s' t' := validate_iff.mp h3
                  simp only [if_true, List.zip_cons_cons]
                  rw [List.filter_cons_of_neg (by simpa using ha)]
                  exact ⟨i3, i4⟩
                | false =>
                  have ha : ¬ Agree s' t' := by
                    intro ha
                    rw [validate_iff.mpr ha] at h3
                    cases h3
                  simp only [Bool.false_eq_true, if_false, List.zip_cons_cons]
                  rw [List.filter_cons_of_pos (by simpa using ha)]
                  simp [i3]

/-- A state with facts for exactly the given predicates and integral values for exactly the given
fluents. -/
def Full (P Fl : List String) (s : FState K) : Prop :=
  s.preds.map Prod.fst = P ∧ s.fluents.map Prod.fst = Fl ∧ ∀ p ∈ s.fluents, ∃ z : ℤ, p.2 = (z : K)

theorem eq_of_lookup {V W : List (String × Finset String)} (hk : V.map Prod.fst = W.map Prod.fst) (hnd : (W.map Prod.fst).Nodup)
    (h : ∀ p ∈ V, W.lookup p.1 = some p.2) : V = W := by
  apply List.ext_getElem (by simpa using congrArg List.length hk)
  intro i h1 h2
  have e : V[i].1 = W[i].1 := by
    have := List.getElem_of_eq hk (by simpa using h1)
    simpa using this
  have l1 := h _ (List.getElem_mem h1)
  have l2 := lookup_of_mem_nodup hnd (k := W[i].1) (v := W[i].2) (List.getElem_mem h2)
  rw [e, l2] at l1
  exact Prod.ext e (Option.some.inj l1).symm

variable [IsStrictOrderedRing K]

theorem agree_self {P Fl : List String} (hP : P.Nodup) (hF : Fl.Nodup) {s : FState K} (h : Full P Fl s) : Agree s s := by
  refine ⟨fun p hp => lookup_of_mem_nodup (by rw [h.1]; exact hP) hp, fun p hp => ⟨p.2, lookup_of_mem_nodup (by rw [h.2.1]; exact hF) hp, ?_⟩⟩
  simp

theorem eq_of_agree {P Fl : List String} (hP : P.Nodup) (hF : Fl.Nodup) {s t : FState K} (hs : Full P Fl s) (ht : Full P Fl t)
    (h : Agree s t) : s = t := by
  have e1 : s.preds = t.preds := eq_of_lookup (by rw [hs.1, ht.1]) (by rw [ht.1]; exact hP) h.1
  have e2 : s.fluents = t.fluents := by
    have hk : s.fluents.map Prod.fst = t.fluents.map Prod.fst := by rw [hs.2.1, ht.2.1]
    apply List.ext_getElem (by simpa using congrArg List.length hk)
    intro i h1 h2
    have e : s.fluents[i].1 = t.fluents[i].1 := by
      have := List.getElem_of_eq hk (by simpa using h1)
      simpa using this
    obtain ⟨x, l1, hx⟩ := h.2 _ (List.getElem_mem h1)
    have l2 := lookup_of_mem_nodup (by rw [ht.2.1]; exact hF) (k := t.fluents[i].1) (v := t.fluents[i].2) (List.getElem_mem h2)
    rw [e, l2] at l1
    have l1 := Option.some.inj l1
    subst l1
    obtain ⟨a, ha⟩ := hs.2.2 _ (List.getElem_mem h1)
    obtain ⟨b, hb⟩ := ht.2.2 _ (List.getElem_mem h2)
    refine Prod.ext e ?_
    rw [ha, hb] at hx ⊢
    rw [← Int.cast_sub, ← Int.cast_abs, ← Int.cast_one, Int.cast_lt] at hx
    have : a - b = 0 := Int.abs_lt_one_iff.mp hx
    have : a = b := by omega
    rw [this]
  cases s; cases t; simp_all

/-- **C98.** If the two domains differ only in action `f`, and the states list all predicates and all
fluents, with integral values, then only `f` can be blamed, and if nothing is blamed both executions
are the same. -/
theorem C98_locates {M F : Machine (FState K)} {f : String} {P Fl : List String} (hP : P.Nodup) (hF : Fl.Nodup)
    (hsame : ∀ c s, c.name ≠ f → F.apply c s = M.apply c s)
    (hM : ∀ c s s', Full P Fl s → M.apply c s = .ok s' → Full P Fl s')
    (hFa : ∀ c s s', Full P Fl s → F.apply c s = .ok s' → Full P Fl s')
    {s : FState K} (hs : Full P Fl s) {plan : List Call} {vo fo : List (Comp (FState K))} {n : Option String}
    (h : observeLoop M F s s plan = .ok (vo, fo, n)) :
    (n = some f ∧ ∃ c ∈ plan, c.name = f) ∨ (n = none ∧ fo = [] ∧ Steps F s plan vo) := by
  induction plan generalizing s vo fo n with
  | nil =>
    unfold observeLoop at h
    cases Except.ok.inj h
    exact Or.inr ⟨rfl, rfl, .nil _⟩
  | cons c plan ih =>
    unfold observeLoop at h
    split at h
    · cases h
    · rename_i hc
      push Not at hc
      simp only [Bind.bind, Except.bind] at h
      cases h1 : M.apply c s with
      | error e => rw [h1] at h; cases h
      | ok s' =>
        cases h2 : F.apply c s with
        | error e => rw [h1, h2] at h; cases h
        | ok t' =>
          cases h3 : validate s' t' with
          | error e => rw [h1, h2] at h; simp only [h3] at h; cases h
          | ok same =>
            cases h4 : observeLoop M F s' t' plan with
            | error e => rw [h1, h2] at h; simp only [h3, h4] at h; cases h
            | ok r =>
              obtain ⟨vo', fo', n'⟩ := r
              rw [h1, h2] at h
              simp only [h3, h4] at h
              have h := Except.ok.inj h
              have e1 := congrArg Prod.fst h
              have e2 := congrArg (fun x => x.2.1) h
              have e3 := congrArg (fun x => x.2.2) h
              dsimp only at e1 e2 e3
              have f1 := hM c s s' hs h1
              have f2 := hFa c s t' hs h2
              cases same with
              | false =>
                left
                have hf : c.name = f := by
                  by_contra hne
                  rw [hsame c s hne, h1] at h2
                  have := Except.ok.inj h2
                  subst this
                  rw [validate_iff.mpr (agree_self hP hF f1)] at h3
                  cases h3
                rw [if_neg (by simp)] at e3
                exact ⟨by rw [← e3, hf], c, List.mem_cons_self, hf⟩
              | true =>
                have := eq_of_agree hP hF f1 f2 (validate_iff.mp h3)
                subst this
                rw [if_pos rfl] at e2 e3
                subst e1 e2 e3
                rcases ih f1 h4 with ⟨k1, d, hd, k2⟩ | ⟨k1, k2, k3⟩
                · exact Or.inl ⟨k1, d, List.mem_cons_of_mem _ hd, k2⟩
                · exact Or.inr ⟨k1, k2, .cons hc.2 h2 k3⟩

/-- C98: no false alarm: if the plan runs the same in both domains, nothing is blamed. -/
theorem C98_no_false_alarm {M F : Machine (FState K)} {P Fl : List String} (hP : P.Nodup) (hF : Fl.Nodup) {s : FState K} {plan : List Call}
    {cs : List (Comp (FState K))} (h1 : Steps M s plan cs) (h2 : Steps F s plan cs) (hfull : ∀ c ∈ cs, Full P Fl c.next) :
    observeLoop M F s s plan = .ok (cs, [], none) := by
  induction h1 with
  | nil s => rfl
  | @cons s s' c plan cs hn ha t ih =>
    cases h2 with
    | cons hn2 ha2 t2 =>
      unfold observeLoop
      rw [if_neg (by push Not; exact ⟨hn, hn2⟩)]
      simp only [Bind.bind, Except.bind, ha, ha2]
      rw [validate_iff.mpr (agree_self hP hF (hfull _ List.mem_cons_self))]
      simp only [ih t2 (fun x hx => hfull x (List.mem_cons_of_mem _ hx)), if_true]


/-- What happened to one plan: the observations, if the plan was executed, and the blamed action. -/
abbrev Outcome (K : Type) := Option (List (Comp (FState K)) × List (Comp (FState K))) × Option String

/-- The blamed action of a run: that of the last plan with a fault. -/
def lastBlamed (os : List (Outcome K)) : Option String := os.reverse.findSome? (·.2)

/-- The verdicts of the plans of a run. -/
def verdictsOf (jobs : List (Job K)) (os : List (Outcome K)) : List (String × Verdict) :=
  (jobs.zip os).map fun p => (p.1.stem, if p.2.2 = none then Verdict.ok else Verdict.stateDifference)

open Classical in
/-- **C99.** The outcome of one plan. If VAL reports it as executable, the observations are the execution of the plan in the model, from the initial state, and those
transitions of its execution in the faulty domain whose results differ; the first of them is blamed. Otherwise there is no observation. -/
theorem C99_outcome {M F : Machine (FState K)} {j : Job K} {o : Outcome K} (h : observePlan M F j = .ok o) :
    ((j.log.valid = true ∨ j.log.goalMissing = true) → ∃ vo fs, Steps M j.init j.plan vo ∧ Steps F j.init j.plan fs ∧
      o = (some (vo, ((vo.zip fs).filter fun p => ¬ Agree p.1.next p.2.next).map Prod.snd),
        (((vo.zip fs).filter fun p => ¬ Agree p.1.next p.2.next).map Prod.snd).head?.map fun c => c.call.name)) ∧
    (¬ (j.log.valid = true ∨ j.log.goalMissing = true) → ∃ n, o = (none, some n)) := by
  unfold observePlan planApplicable at h
  simp only [Bind.bind, Except.bind] at h
  by_cases h1 : (j.log.valid || j.log.goalMissing) = true
  · rw [if_pos h1] at h
    simp only [↓reduceIte] at h
    refine ⟨fun _ => ?_, fun hn => absurd (by simpa using h1) hn⟩
    cases hl : observeLoop M F j.init j.init j.plan with
    | error e => rw [hl] at h; cases h
    | ok r =>
      rw [hl] at h
      obtain ⟨vo, fo, n⟩ := r
      obtain ⟨fs, s1, s2, e1, e2⟩ := C98_observation hl
      refine ⟨vo, fs, s1, s2, ?_⟩
      rw [← e1, ← e2]
      exact (Except.ok.inj h).symm
  · rw [if_neg h1] at h
    refine ⟨fun hn => absurd (by simpa using hn) h1, fun _ => ?_⟩
    by_cases h2 : j.log.failed = true
    · rw [if_pos h2] at h
      cases hl : j.log.reports.findSome? locate with
      | none => rw [hl] at h; cases h
      | some n =>
        rw [hl] at h
        exact ⟨_, (Except.ok.inj h).symm⟩
    · rw [if_neg h2] at h; cases h

omit [IsStrictOrderedRing K] in
theorem observePlan_shape {M F : Machine (FState K)} {j : Job K} {o : Outcome K} (h : observePlan M F j = .ok o) (hn : o.1 = none) :
    o.2 ≠ none := by
  unfold observePlan planApplicable at h
  simp only [Bind.bind, Except.bind] at h
  by_cases h1 : (j.log.valid || j.log.goalMissing) = true
  · rw [if_pos h1] at h
    simp only [if_true] at h
    split at h
    · cases h
    · have := Except.ok.inj h
      subst this
      cases hn
  · rw [if_neg h1] at h
    by_cases h2 : j.log.failed = true
    · rw [if_pos h2] at h
      cases h3 : j.log.reports.findSome? locate with
      | none => simp only [h3] at h; cases h
      | some n =>
        simp only [h3, Bool.false_eq_true, if_false] at h
        have := Except.ok.inj h
        subst this
        simp
    · rw [if_neg h2] at h; cases h

omit [IsStrictOrderedRing K] in
theorem executeStep_eq {M F : Machine (FState K)} {report : List String} {r : Run K} {j : Job K} {o : Outcome K}
    (hj : j.stem ∈ report) (h : observePlan M F j = .ok o) :
    executeStep M F report r j = .ok {
      valid := r.valid ++ (o.1.map Prod.fst).toList
      faulty := r.faulty ++ (o.1.map Prod.snd).toList
      verdicts := if o.1 = none then Py.dictSet (Py.dictSet r.verdicts j.stem .notApplicable) j.stem .stateDifference
        else Py.dictSet r.verdicts j.stem (if o.2 = none then .ok else .stateDifference)
      name := o.2.or r.name } := by
  unfold executeStep
  rw [if_neg (by simpa using hj)]
  simp only [Bind.bind, Except.bind, h]
  obtain ⟨a, b⟩ := o
  cases a with
  | none =>
    cases b with
    | none => exact absurd rfl (observePlan_shape h rfl)
    | some n => simp
  | some q =>
    cases b with
    | none => simp
    | some n => simp

theorem dictSet_twice {β : Type} (d : List (String × β)) (k : String) (v w : β) :
    Py.dictSet (Py.dictSet d k v) k w = Py.dictSet d k w := by
  have hk : k ∈ (Py.dictSet d k v).map Prod.fst := by
    rw [Py.keys_dictSet]; split <;> simp_all
  have e : Py.dictSet (Py.dictSet d k v) k w = (Py.dictSet d k v).map (fun p => if p.1 = k then (k, w) else p) := by
    generalize Py.dictSet d k v = d' at hk
    unfold Py.dictSet
    rw [if_pos hk]
  rw [e]
  unfold Py.dictSet
  by_cases h : k ∈ d.map Prod.fst
  · rw [if_pos h, if_pos h, List.map_map]
    apply List.map_congr_left
    intro p _
    simp only [Function.comp]
    split <;> simp_all
  · rw [if_neg h, if_neg h, List.map_append]
    congr 1
    · rw [List.map_congr_left (g := id)]
      · simp
      · intro p hp
        have : p.1 ≠ k := fun e => h (List.mem_map.mpr ⟨p, hp, e⟩)
        simp [this]
    · simp

omit [IsStrictOrderedRing K] in
theorem foldl_spec {M F : Machine (FState K)} {report : List String} {jobs : List (Job K)} {r r' : Run K}
    (h : jobs.foldlM (executeStep M F report) r = .ok r') :
    ∃ os, List.Forall₂ (fun j o => observePlan M F j = .ok o) (jobs.filter fun j => j.stem ∈ report) os ∧
      r'.valid = r.valid ++ os.filterMap (fun o => o.1.map Prod.fst) ∧
      r'.faulty = r.faulty ++ os.filterMap (fun o => o.1.map Prod.snd) ∧
      r'.verdicts = (verdictsOf (jobs.filter fun j => j.stem ∈ report) os).foldl (fun d p => Py.dictSet d p.1 p.2) r.verdicts ∧
      r'.name = (lastBlamed os).or r.name := by
  induction jobs generalizing r with
  | nil =>
    cases Except.ok.inj h
    exact ⟨[], .nil, by simp, by simp, rfl, rfl⟩
  | cons j jobs ih =>
    rw [List.foldlM_cons] at h
    simp only [Bind.bind, Except.bind] at h
    by_cases hj : j.stem ∈ report
    · rw [List.filter_cons_of_pos (by simpa using hj)]
      cases ho : observePlan M F j with
      | error e =>
        exfalso
        have : executeStep M F report r j = .error e := by
          unfold executeStep
          rw [if_neg (by simpa using hj)]
          simp only [Bind.bind, Except.bind, ho]
        rw [this] at h; cases h
      | ok o =>
        rw [executeStep_eq hj ho] at h
        obtain ⟨os, h1, h2, h3, h4, h5⟩ := ih h
        refine ⟨o :: os, .cons ho h1, ?_, ?_, ?_, ?_⟩
        · rw [h2]; cases e : o.1 <;> simp [e]
        · rw [h3]; cases e : o.1 <;> simp [e]
        · rw [h4]
          unfold verdictsOf
          simp only [List.zip_cons_cons, List.map_cons, List.foldl_cons]
          congr 1
          by_cases hn : o.1 = none
          · rw [if_pos hn, dictSet_twice, if_neg (observePlan_shape ho hn)]
          · rw [if_neg hn]
        · rw [h5]
          unfold lastBlamed
          rw [List.reverse_cons, List.findSome?_append]
          simp only [List.findSome?_cons, List.findSome?_nil]
          cases os.reverse.findSome? (·.2) <;> cases o.2 <;> rfl
    · rw [List.filter_cons_of_neg (by simpa using hj)]
      have : executeStep M F report r j = .ok r := by
        unfold executeStep
        rw [if_pos (by simpa using hj)]
      rw [this] at h
      exact ih h

/-- **C99.** Executing the reported plans: every one of them was observed; the verdict of each is `ok` if
nothing was blamed and `state_difference` otherwise (also for plans that were not applicable); the
blamed action is that of the last plan with a fault; both lists of observations have one entry for
each executed plan, cut down to the transitions of the blamed action. -/
theorem C99_execution {M F : Machine (FState K)} {report : List String} {jobs : List (Job K)} {repaired : Bool} {R : Run K}
    (hd : (jobs.map Job.stem).Nodup) (h : executePlans M F report jobs repaired = .ok R) :
    ∃ os, List.Forall₂ (fun j o => observePlan M F j = .ok o) (jobs.filter fun j => j.stem ∈ report) os ∧
      R.verdicts = verdictsOf (jobs.filter fun j => j.stem ∈ report) os ∧ R.name = lastBlamed os ∧
      (R.name = none → repaired = true) ∧
      R.valid = (os.filterMap fun o => o.1).map (fun q => q.1.filter fun c => some c.call.name = R.name) ∧
      R.faulty = (os.filterMap fun o => o.1).map (fun q => q.2.filter fun c => some c.call.name = R.name) := by
  unfold executePlans at h
  simp only [Bind.bind, Except.bind] at h
  cases hf : jobs.foldlM (executeStep M F report) (⟨[], [], [], none⟩ : Run K) with
  | error e => rw [hf] at h; cases h
  | ok r =>
    rw [hf] at h
    simp only at h
    by_cases hn : r.name = none ∧ repaired = false
    · rw [if_pos hn] at h; cases h
    · rw [if_neg hn] at h
      have h := (Except.ok.inj h).symm
      subst h
      obtain ⟨os, h1, h2, h3, h4, h5⟩ := foldl_spec hf
      have hlen := h1.length_eq
      refine ⟨os, h1, ?_, ?_, ?_, ?_, ?_⟩
      · simp only
        rw [h4]
        have hk : ((verdictsOf (jobs.filter fun j => j.stem ∈ report) os).map Prod.fst).Nodup := by
          have : (verdictsOf (jobs.filter fun j => j.stem ∈ report) os).map Prod.fst = (jobs.filter fun j => j.stem ∈ report).map Job.stem := by
            unfold verdictsOf
            rw [List.map_map]
            have : (Prod.fst ∘ fun p : Job K × Outcome K => (p.1.stem, if p.2.2 = none then Verdict.ok else Verdict.stateDifference)) = Job.stem ∘ Prod.fst := rfl
            rw [this, ← List.map_map, List.map_fst_zip (by omega)]
          rw [this]
          exact (List.filter_sublist.map _).nodup hd
        exact Py.dictOf_of_nodup hk
      · simp only [h5]; cases lastBlamed os <;> rfl
      · intro e
        cases repaired with
        | true => rfl
        | false => exact absurd ⟨e, rfl⟩ hn
      · simp only [h2, List.nil_append]
        rw [List.map_filterMap, List.map_filterMap]
        congr 1; funext o; cases o.1 <;> rfl
      · simp only [h3, List.nil_append]
        rw [List.map_filterMap, List.map_filterMap]
        congr 1; funext o; cases o.1 <;> rfl

omit [IsStrictOrderedRing K] in
/-- C99: `ValueError` is raised exactly when every reported plan is observed, nothing is blamed and the
domain is not said to be repaired. -/
theorem C99_no_fault {M F : Machine (FState K)} {report : List String} {jobs : List (Job K)}
    {os : List (Outcome K)} (h : List.Forall₂ (fun j o => observePlan M F j = .ok o) (jobs.filter fun j => j.stem ∈ report) os) :
    executePlans M F report jobs false = .error .valueError ↔ ∀ o ∈ os, o.2 = none := by
  have hf : ∃ r, jobs.foldlM (executeStep M F report) (⟨[], [], [], none⟩ : Run K) = .ok r := by
    generalize (⟨[], [], [], none⟩ : Run K) = r0
    induction jobs generalizing os r0 with
    | nil => exact ⟨r0, rfl⟩
    | cons j jobs ih =>
      rw [List.foldlM_cons]
      simp only [Bind.bind, Except.bind]
      by_cases hj : j.stem ∈ report
      · rw [List.filter_cons_of_pos (by simpa using hj)] at h
        cases h with
        | cons h1 h2 =>
          rw [executeStep_eq hj h1]
          exact ih h2 _
      · rw [List.filter_cons_of_neg (by simpa using hj)] at h
        have : executeStep M F report r0 j = .ok r0 := by
          unfold executeStep
          rw [if_pos (by simpa using hj)]
        rw [this]
        exact ih h _
  obtain ⟨r, hr⟩ := hf
  obtain ⟨os', g1, _, _, _, g5⟩ := foldl_spec hr
  have hos : os' = os := by
    clear hr g5 ‹r.valid = _› ‹r.faulty = _› ‹r.verdicts = _›
    revert g1 h
    generalize (jobs.filter fun j => j.stem ∈ report) = js
    intro h g1
    induction h generalizing os' with
    | nil => cases g1; rfl
    | cons a _ ih =>
      cases g1 with
      | cons b c =>
        rw [a] at b
        cases Except.ok.inj b
        rw [ih _ c]
  subst hos
  have hname : r.name = lastBlamed os' := by rw [g5]; cases lastBlamed os' <;> rfl
  have hiff : lastBlamed os' = none ↔ ∀ o ∈ os', o.2 = none := by
    unfold lastBlamed
    simp [List.findSome?_eq_none_iff]
  unfold executePlans
  simp only [Bind.bind, Except.bind, hr, hname]
  rw [← hiff]
  constructor
  · intro k
    by_contra hc
    rw [if_neg (by simp [hc])] at k
    cases k
  · intro k
    rw [if_pos (by simp [k])]

omit [IsStrictOrderedRing K] in
/-- C99: the reading of VAL's log: executed if VAL found the plan valid or only the goal missing. -/
theorem C99_log (log : Log) :
    (planApplicable log = .ok (true, none) ↔ log.valid = true ∨ log.goalMissing = true) ∧
    (planApplicable log = .error .typeError ↔ log.valid = false ∧ log.goalMissing = false ∧ log.failed = false) ∧
    (planApplicable log = .error .attributeError ↔
      log.valid = false ∧ log.goalMissing = false ∧ log.failed = true ∧ ∀ t ∈ log.reports, locate t = none) := by
  obtain ⟨v, g, f, rs⟩ := log
  unfold planApplicable
  cases h : rs.findSome? locate with
  | none =>
    have hall := List.findSome?_eq_none_iff.mp h
    cases v <;> cases g <;> cases f <;> simp [h]
    exact hall
  | some n =>
    have hall : ¬ ∀ t ∈ rs, locate t = none := fun hk => by rw [List.findSome?_eq_none_iff.mpr hk] at h; cases h
    cases v <;> cases g <;> cases f <;> simp [h]
    push Not at hall
    exact hall

/-- The characters of the second part of the regular expression. -/
def argChar (c : Char) : Bool := wordChar c || c == '+' || c == ' '

theorem takeWhile_all {p : Char → Bool} : ∀ {l r : List Char} {c : Char}, (∀ x ∈ l, p x = true) → p c = false →
    (l ++ c :: r).takeWhile p = l ∧ (l ++ c :: r).dropWhile p = c :: r
  | [], r, c, _, hc => by simp [List.takeWhile_cons, List.dropWhile_cons, hc]
  | a :: l, r, c, h, hc => by
    have := takeWhile_all (l := l) (r := r) (fun x hx => h x (List.mem_cons_of_mem _ hx)) hc
    have ha := h a (by simp)
    simp [List.takeWhile_cons, List.dropWhile_cons, ha, this.1, this.2]

theorem mem_tw {p : Char → Bool} : ∀ {l : List Char} {c : Char}, c ∈ l.takeWhile p → p c = true
  | a :: l, c, h => by
    rw [List.takeWhile_cons] at h
    split at h
    · rename_i ha
      rcases List.mem_cons.mp h with rfl | h
      · exact ha
      · exact mem_tw h
    · cases h

/-- C99: the action VAL's log names: a non-empty word after the parenthesis, followed by a space, words
and the closing parenthesis. Names with hyphens are not found. -/
theorem C99_locate_iff (text name : List Char) : locate text = some name ↔
    name ≠ [] ∧ (∀ c ∈ name, wordChar c = true) ∧ ∃ args rest : List Char, (∀ c ∈ args, argChar c = true) ∧
      text = '(' :: (name ++ ' ' :: (args ++ ')' :: rest)) := by
  constructor
  · intro h
    unfold locate at h
    split at h
    · rename_i rest
      dsimp only at h
      by_cases hn : rest.takeWhile wordChar = []
      · rw [if_pos hn] at h; cases h
      · rw [if_neg hn] at h
        split at h
        · rename_i r2 h2
          split at h
          · rename_i r3 h3
            have := Option.some.inj h
            subst this
            refine ⟨hn, fun c hc => mem_tw hc, r2.takeWhile argChar, r3, fun c hc => mem_tw hc, ?_⟩
            have e1 := List.takeWhile_append_dropWhile (p := wordChar) (l := rest)
            have e2 := List.takeWhile_append_dropWhile (p := argChar) (l := r2)
            have h3' : r2.dropWhile argChar = ')' :: r3 := h3
            rw [← h3', e2, ← h2, e1]
          · cases h
        · cases h
    · cases h
  · rintro ⟨hn, hw, args, rest, ha, rfl⟩
    unfold locate
    dsimp only
    obtain ⟨e1, e2⟩ := takeWhile_all (p := wordChar) (r := args ++ ')' :: rest) (c := ' ') hw (by decide)
    obtain ⟨-, e3⟩ := takeWhile_all (p := argChar) (r := rest) (c := ')') ha (by decide)
    show (if (name ++ ' ' :: (args ++ ')' :: rest)).takeWhile wordChar = [] then none
      else match (name ++ ' ' :: (args ++ ')' :: rest)).dropWhile wordChar with
      | ' ' :: rest' => match rest'.dropWhile (fun c => wordChar c || c == '+' || c == ' ') with
        | ')' :: _ => some ((name ++ ' ' :: (args ++ ')' :: rest)).takeWhile wordChar)
        | _ => none
      | _ => none) = some name
    rw [e1, if_neg hn, e2]
    have e3' : (args ++ ')' :: rest).dropWhile (fun c => wordChar c || c == '+' || c == ' ') = ')' :: rest := e3
    show (match (args ++ ')' :: rest).dropWhile (fun c => wordChar c || c == '+' || c == ' ') with
        | ')' :: _ => some name
        | _ => none) = some name
    rw [e3']
    rfl

end
end Fault
end Props
