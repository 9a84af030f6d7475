import Verif.Model.MaDatasets
import Verif.Props.DummyActions
import Verif.Spec.Joint

/-! C130: the regular and the enhanced multi-agent data set. -/
namespace Props
namespace MaDatasets
open Model Spec Model.Dummy Model.MaDatasets Props.Dummy

/-- The dummy predicate. -/
def dp : String := "dummy-additional-predicate"
def δ : Atom := ⟨dp, []⟩

/-- The actions that are executed. -/
def callsOf (j : Joint) : List Call := j.filterMap fun x => match x with | .nop => none | .call n ps => some ⟨n, ps⟩

theorem mem_callsOf {j : Joint} {k : Call} : k ∈ callsOf j ↔ Slot.call k.name k.params ∈ j := by
  unfold callsOf
  rw [List.mem_filterMap]
  constructor
  · rintro ⟨x, hx, h⟩
    cases x with
    | nop => simp at h
    | call n ps => simp at h; subst h; exact hx
  · intro h
    exact ⟨_, h, rfl⟩

/-- The plan leads from a state through the listed states by real joint transitions. -/
def Runs (truth : String → Schema) : State → List Joint → List State → Prop
  | _, [], ts => ts = []
  | s, j :: js, ts => ∃ t r, ts = t :: r ∧ JointExplained truth ⟨s, callsOf j, t⟩ ∧ Runs truth t js r

/-- The dummy actions are those of the library; no other action has the dummy predicate. -/
structure WithDummies (truth : String → Schema) : Prop where
  add : (truth addName).params.length = 1 ∧ (truth addName).pre = ∅ ∧ (truth addName).eff = {⟨dp, [], true⟩}
  del : (truth delName).params.length = 1 ∧ (truth delName).pre = ∅ ∧ (truth delName).eff = {⟨dp, [], false⟩}
  others : ∀ a, a ≠ addName → a ≠ delName → ∀ l ∈ (truth a).pre ∪ (truth a).eff, l.name ≠ dp

/-- The states have the same atoms of the other predicates. -/
def Agree (s t : State) : Prop := ∀ a : Atom, a.name ≠ dp → (a ∈ s ↔ a ∈ t)

theorem Agree.refl (s : State) : Agree s s := fun _ _ => Iff.rfl
theorem Agree.symm {s t : State} (h : Agree s t) : Agree t s := fun a ha => (h a ha).symm

theorem Agree.holds {s t : State} (h : Agree s t) {g : Lit} (hg : g.name ≠ dp) : Spec.holds s g ↔ Spec.holds t g := by
  unfold Spec.holds
  rw [h g.atom hg]

theorem set_mem {j : Joint} {k : Nat} {v x : Slot} (hk : j[k]? = some .nop) (hx : x ∈ j) (hn : x ≠ .nop) : x ∈ j.set k v := by
  obtain ⟨i, hi⟩ := List.mem_iff_getElem?.mp hx
  refine List.mem_iff_getElem?.mpr ⟨i, ?_⟩
  have : k ≠ i := by
    rintro rfl
    rw [hk] at hi
    exact hn (Option.some.inj hi).symm
  rw [List.getElem?_set_ne this]
  exact hi

theorem kept_sub {agents : List String} {j j' : Joint} (h : Kept agents j j') {k : Call} (hk : k ∈ callsOf j) : k ∈ callsOf j' := by
  rw [mem_callsOf] at hk ⊢
  rcases h with rfl | ⟨i, g, h1, _, rfl⟩ | ⟨i, g, h1, _, rfl⟩
  · exact hk
  · exact set_mem h1 hk (by simp)
  · exact set_mem h1 hk (by simp)

theorem kept_new {agents : List String} {j j' : Joint} (h : Kept agents j j') {k : Call} (hk : k ∈ callsOf j') :
    k ∈ callsOf j ∨ ∃ g, k = ⟨addName, [g]⟩ ∨ k = ⟨delName, [g]⟩ := by
  rw [mem_callsOf] at hk
  rw [mem_callsOf]
  rcases h with rfl | ⟨i, g, h1, _, rfl⟩ | ⟨i, g, h1, _, rfl⟩
  · exact .inl hk
  · rcases List.mem_or_eq_of_mem_set hk with h | h
    · exact .inl h
    · right
      refine ⟨g, .inl ?_⟩
      cases k; simp_all
  · rcases List.mem_or_eq_of_mem_set hk with h | h
    · exact .inl h
    · right
      refine ⟨g, .inr ?_⟩
      cases k; simp_all

/-- No call of the joint action is a dummy action. -/
def Plain (j : Joint) : Prop := ∀ ps, Slot.call addName ps ∉ j ∧ Slot.call delName ps ∉ j

theorem plain_call {j : Joint} (h : Plain j) {k : Call} (hk : k ∈ callsOf j) : k.name ≠ addName ∧ k.name ≠ delName := by
  rw [mem_callsOf] at hk
  constructor
  · intro e; rw [e] at hk; exact (h _).1 hk
  · intro e; rw [e] at hk; exact (h _).2 hk

variable {truth : String → Schema} {agents : List String}

/-- An effect on another predicate is one of an action of the plain joint action. -/
theorem effect_plain (hT : WithDummies truth) {j j' : Joint} (hk : Kept agents j j') {k : Call} (hc : k ∈ callsOf j') {e g : Lit} (he : e ∈ (truth k.name).eff)
    (hg : ground (callSubst truth k) e = g) (hn : g.name ≠ dp) : k ∈ callsOf j := by
  rcases kept_new hk hc with h | ⟨a, rfl | rfl⟩
  · exact h
  · rw [hT.add.2.2, Finset.mem_singleton] at he
    subst he hg
    exact absurd rfl hn
  · rw [hT.del.2.2, Finset.mem_singleton] at he
    subst he hg
    exact absurd rfl hn

theorem half (hT : WithDummies truth) {s s' t t' : State} {j j' : Joint} (ha : Agree s t) (h1 : JointExplained truth ⟨s, callsOf j, s'⟩)
    (h2 : JointExplained truth ⟨t, callsOf j', t'⟩) (hk : Kept agents j j') {g : Lit} (hn : g.name ≠ dp) (hg : holds s' g) : holds t' g := by
  by_contra hc
  by_cases hs : holds s g
  · have ht := (ha.holds hn).mp hs
    have hneg : holds t' g.neg := by
      unfold Spec.holds at hc ⊢
      have e : g.neg.atom = g.atom := rfl
      rw [e]
      cases hp : g.pos <;> simp_all [Lit.neg]
    have hneg' : ¬ holds t g.neg := by
      unfold Spec.holds at ht ⊢
      have e : g.neg.atom = g.atom := rfl
      rw [e]
      cases hp : g.pos <;> simp_all [Lit.neg]
    obtain ⟨k, hk1, e, he, hge⟩ := h2.frame g.neg hneg hneg'
    have hk2 := effect_plain hT hk hk1 he hge hn
    have := h1.effects k hk2 e he
    rw [hge] at this
    unfold Spec.holds at this hg
    have e : g.neg.atom = g.atom := rfl
    dsimp only at this
    rw [e] at this
    cases hp : g.pos <;> simp_all [Lit.neg]
  · obtain ⟨k, hk1, e, he, hge⟩ := h1.frame g hg hs
    have := h2.effects k (kept_sub hk hk1) e he
    rw [hge] at this
    exact hc this

theorem step_agree (hT : WithDummies truth) {s s' t t' : State} {j j' : Joint} (ha : Agree s t) (h1 : JointExplained truth ⟨s, callsOf j, s'⟩)
    (h2 : JointExplained truth ⟨t, callsOf j', t'⟩) (hk : Kept agents j j') : Agree s' t' := by
  intro a hn
  have hp := half hT ha h1 h2 hk (g := ⟨a.name, a.args, true⟩) hn
  have hm := half hT ha h1 h2 hk (g := ⟨a.name, a.args, false⟩) hn
  unfold Spec.holds at hp hm
  have e1 : Lit.atom ⟨a.name, a.args, true⟩ = a := rfl
  have e2 : Lit.atom ⟨a.name, a.args, false⟩ = a := rfl
  rw [e1] at hp
  rw [e2] at hm
  simp only [true_iff, Bool.false_eq_true, false_iff] at hp hm
  exact ⟨hp, fun h => by by_contra hc; exact hm hc h⟩

/-- **C130, the states.** A plan with dummy actions, executed from the same state, goes through the same states except for the dummy predicate. -/
theorem runs_agree (hT : WithDummies truth) : ∀ {plan p : List Joint} {s t : State} {ss ts : List State}, List.Forall₂ (Kept agents) plan p → Agree s t →
    Runs truth s plan ss → Runs truth t p ts → List.Forall₂ Agree ss ts := by
  intro plan
  induction plan with
  | nil =>
    intro p s t ss ts hk _ h1 h2
    cases hk
    rw [show ss = [] from h1, show ts = [] from h2]
    exact .nil
  | cons j js ih =>
    intro p s t ss ts hk ha h1 h2
    cases hk with
    | cons hj hjs =>
      obtain ⟨s', r, rfl, e1, h1⟩ := h1
      obtain ⟨t', r', rfl, e2, h2⟩ := h2
      have := step_agree hT ha e1 e2 hj
      exact .cons this (ih hjs this h1 h2)

/-- Whether a joint action leaves the dummy predicate true. -/
noncomputable def dummyStep (b : Bool) (j : Joint) : Bool := dummyAfter b [j]

open Classical in
theorem dummyStep_eq (b : Bool) (j : Joint) :
    dummyStep b j = if (∃ ps, Slot.call addName ps ∈ j) then true else if (∃ ps, Slot.call delName ps ∈ j) then false else b := by
  unfold dummyStep dummyAfter dummyAfter
  split <;> rfl

/-- At most one kind of dummy action in a changed plain joint action. -/
theorem kept_one {j j' : Joint} (hp : Plain j) (hk : Kept agents j j') {ps qs : List String} (h1 : Slot.call addName ps ∈ j') (h2 : Slot.call delName qs ∈ j') :
    False := by
  have hne : addName ≠ delName := by decide
  rcases hk with rfl | ⟨i, g, _, _, rfl⟩ | ⟨i, g, _, _, rfl⟩
  · exact (hp ps).1 h1
  · rcases List.mem_or_eq_of_mem_set h2 with h | h
    · exact (hp qs).2 h
    · simp only [Slot.call.injEq] at h; exact hne h.1.symm
  · rcases List.mem_or_eq_of_mem_set h1 with h | h
    · exact (hp ps).1 h
    · simp only [Slot.call.injEq] at h; exact hne h.1

theorem atom_dummy (b : Bool) : Lit.atom ⟨dp, [], b⟩ = δ := rfl

theorem subst_dummy (k : Call) (b : Bool) : ground (callSubst truth k) ⟨dp, [], b⟩ = ⟨dp, [], b⟩ := rfl

/-- The dummy predicate after a real transition of a changed joint action. -/
theorem dummy_after_step (hT : WithDummies truth) {j j' : Joint} (hp : Plain j) (hk : Kept agents j j') {t t' : State}
    (h : JointExplained truth ⟨t, callsOf j', t'⟩) : decide (δ ∈ t') = dummyStep (decide (δ ∈ t)) j' := by
  rw [dummyStep_eq]
  by_cases h1 : ∃ ps, Slot.call addName ps ∈ j'
  · rw [if_pos h1]
    obtain ⟨ps, h1⟩ := h1
    have := h.effects ⟨addName, ps⟩ (mem_callsOf.mpr h1) ⟨dp, [], true⟩ (by rw [hT.add.2.2]; simp)
    rw [subst_dummy] at this
    unfold holds at this
    simpa [atom_dummy] using this.mp rfl
  · rw [if_neg h1]
    by_cases h2 : ∃ ps, Slot.call delName ps ∈ j'
    · rw [if_pos h2]
      obtain ⟨ps, h2⟩ := h2
      have := h.effects ⟨delName, ps⟩ (mem_callsOf.mpr h2) ⟨dp, [], false⟩ (by rw [hT.del.2.2]; simp)
      rw [subst_dummy] at this
      unfold holds at this
      simp only [Bool.false_eq_true, false_iff] at this
      simpa [atom_dummy] using this
    · rw [if_neg h2]
      have hno : ∀ b, ¬ ∃ k ∈ callsOf j', ∃ e ∈ (truth k.name).eff, ground (callSubst truth k) e = ⟨dp, [], b⟩ := by
        rintro b ⟨k, hk1, e, he, hge⟩
        have hn : k.name ≠ addName ∧ k.name ≠ delName :=
          ⟨fun e => h1 ⟨k.params, by rw [← e]; exact mem_callsOf.mp hk1⟩, fun e => h2 ⟨k.params, by rw [← e]; exact mem_callsOf.mp hk1⟩⟩
        exact hT.others k.name hn.1 hn.2 e (Finset.mem_union_right _ he) (congrArg Lit.name hge)
      have ht : holds t' ⟨dp, [], true⟩ ↔ holds t ⟨dp, [], true⟩ := by
        constructor
        · intro a; by_contra hc; exact hno true (h.frame _ a hc)
        · intro a
          by_contra hc
          refine hno false (h.frame ⟨dp, [], false⟩ ?_ ?_)
          · unfold holds at hc ⊢; simpa [atom_dummy] using hc
          · unfold holds at a ⊢; simpa [atom_dummy] using a
      unfold holds at ht
      simp only [true_iff] at ht
      exact decide_eq_decide.mpr ht

theorem dummy_after_runs (hT : WithDummies truth) : ∀ {plan p : List Joint} {t : State} {ts : List State}, NoDummy plan → List.Forall₂ (Kept agents) plan p →
    Runs truth t p ts → decide (δ ∈ ts.getLastD t) = dummyAfter (decide (δ ∈ t)) p := by
  intro plan
  induction plan with
  | nil =>
    intro p t ts _ hk h
    cases hk
    rw [show ts = [] from h]
    rfl
  | cons j js ih =>
    intro p t ts hn hk h
    cases hk with
    | cons hj hjs =>
      rename_i j' p'
      obtain ⟨t', r, rfl, e, h⟩ := h
      have h1 := ih (fun x hx => hn x (List.mem_cons_of_mem _ hx)) hjs h
      have h2 := dummy_after_step hT (hn j List.mem_cons_self) hj e
      rw [List.getLastD_cons, h1, h2]
      unfold dummyStep
      rw [show j' :: p' = [j'] ++ p' from rfl, dummyAfter_append]

/-! ### Executability -/

theorem step_exists (hT : WithDummies truth) {j j' : Joint} (hp : Plain j) (hk : Kept agents j j') {s s' t : State} (ha : Agree s t)
    (h : JointExplained truth ⟨s, callsOf j, s'⟩) : ∃ t', JointExplained truth ⟨t, callsOf j', t'⟩ := by
  classical
  let D : Finset Atom := t.filter fun a => a.name = dp
  let D' : Finset Atom := if (∃ ps, Slot.call addName ps ∈ j') then insert δ D else if (∃ ps, Slot.call delName ps ∈ j') then D.erase δ else D
  let t' : State := (s'.filter fun a => a.name ≠ dp) ∪ D'
  have hD' : ∀ a ∈ D', a.name = dp := by
    intro a ha'
    have hD : ∀ a ∈ D, a.name = dp := fun a ha => (Finset.mem_filter.mp ha).2
    unfold D' at ha'
    split at ha'
    · rcases Finset.mem_insert.mp ha' with rfl | h
      · rfl
      · exact hD a h
    · split at ha'
      · exact hD a (Finset.mem_of_mem_erase ha')
      · exact hD a ha'
  have hag : Agree s' t' := by
    intro a hn
    unfold t'
    simp only [Finset.mem_union, Finset.mem_filter]
    constructor
    · intro h; exact .inl ⟨h, hn⟩
    · rintro (h | h)
      · exact h.1
      · exact absurd (hD' a h) hn
  have hdum : ∀ a : Atom, a.name = dp → (a ∈ t' ↔ a ∈ D') := by
    intro a hn
    unfold t'
    simp only [Finset.mem_union, Finset.mem_filter]
    constructor
    · rintro (h | h)
      · exact absurd hn h.2
      · exact h
    · exact .inr
  refine ⟨t', ⟨?_, ?_, ?_, ?_⟩⟩
  · intro k hk1
    rcases kept_new hk hk1 with h1 | ⟨g, rfl | rfl⟩
    · exact h.arity k h1
    · exact hT.add.1.symm
    · exact hT.del.1.symm
  · intro k hk1
    rcases kept_new hk hk1 with h1 | ⟨g, rfl | rfl⟩
    · intro l hl
      obtain ⟨n1, n2⟩ := plain_call hp h1
      exact (ha.holds (g := ground (callSubst truth k) l) (hT.others _ n1 n2 l (Finset.mem_union_left _ hl))).mp (h.app k h1 l hl)
    · intro l hl; dsimp only at hl; rw [hT.add.2.1] at hl; simp at hl
    · intro l hl; dsimp only at hl; rw [hT.del.2.1] at hl; simp at hl
  · intro k hk1 e he
    rcases kept_new hk hk1 with h1 | ⟨g, rfl | rfl⟩
    · obtain ⟨n1, n2⟩ := plain_call hp h1
      exact (hag.holds (g := ground (callSubst truth k) e) (hT.others _ n1 n2 e (Finset.mem_union_right _ he))).mp (h.effects k h1 e he)
    · dsimp only at he
      rw [hT.add.2.2, Finset.mem_singleton] at he
      subst he
      rw [subst_dummy]
      show (true = true ↔ δ ∈ t')
      rw [hdum δ rfl]
      have : ∃ ps, Slot.call addName ps ∈ j' := ⟨[g], mem_callsOf.mp hk1⟩
      unfold D'
      rw [if_pos this]
      simp
    · dsimp only at he
      rw [hT.del.2.2, Finset.mem_singleton] at he
      subst he
      rw [subst_dummy]
      show (false = true ↔ δ ∈ t')
      rw [hdum δ rfl]
      have h2 : ∃ ps, Slot.call delName ps ∈ j' := ⟨[g], mem_callsOf.mp hk1⟩
      have h1 : ¬ ∃ ps, Slot.call addName ps ∈ j' := by
        rintro ⟨ps, h1⟩
        exact kept_one hp hk h1 (mem_callsOf.mp hk1)
      unfold D'
      rw [if_neg h1, if_pos h2]
      simp
  · intro g hg hng
    dsimp only at hg hng
    by_cases hn : g.name = dp
    · have hmem : g.atom ∈ t' ↔ g.atom ∈ D' := hdum _ hn
      have hmt : g.atom ∈ t ↔ g.atom ∈ D := by
        unfold D
        rw [Finset.mem_filter]
        exact ⟨fun h => ⟨h, hn⟩, fun h => h.1⟩
      unfold holds at hg hng
      rw [hmem] at hg
      rw [hmt] at hng
      unfold D' at hg
      split at hg
      · rename_i h1
        obtain ⟨ps, h1⟩ := h1
        have hd : g = ⟨dp, [], true⟩ := by
          rw [Finset.mem_insert] at hg
          have hgd : g.atom = δ := by
            by_contra hc
            simp only [hc, false_or] at hg
            exact hng hg
          obtain ⟨n, a, b⟩ := g
          simp only [Lit.atom, δ, Atom.mk.injEq] at hgd
          obtain ⟨rfl, rfl⟩ := hgd
          have : b = true := hg.mpr (.inl rfl)
          rw [this]
        refine ⟨⟨addName, ps⟩, mem_callsOf.mpr h1, ⟨dp, [], true⟩, ?_, ?_⟩
        · rw [hT.add.2.2]; simp
        · rw [hd]; rfl
      · split at hg
        · rename_i h1 h2
          obtain ⟨ps, h2⟩ := h2
          have hd : g = ⟨dp, [], false⟩ := by
            rw [Finset.mem_erase] at hg
            have hgd : g.atom = δ := by
              by_contra hc
              simp only [ne_eq, hc, not_false_eq_true, true_and] at hg
              exact hng hg
            obtain ⟨n, a, b⟩ := g
            simp only [Lit.atom, δ, Atom.mk.injEq] at hgd
            obtain ⟨rfl, rfl⟩ := hgd
            have : ¬ b = true := fun hb => (hg.mp hb).1 rfl
            simp only [Bool.not_eq_true] at this
            rw [this]
          refine ⟨⟨delName, ps⟩, mem_callsOf.mpr h2, ⟨dp, [], false⟩, ?_, ?_⟩
          · rw [hT.del.2.2]; simp
          · rw [hd]; rfl
        · exact absurd hg hng
    · obtain ⟨k, hk1, e, he, hge⟩ := h.frame g ((hag.holds hn).mpr hg) fun hc => hng ((ha.holds hn).mp hc)
      exact ⟨k, kept_sub hk hk1, e, he, hge⟩

theorem runs_exists (hT : WithDummies truth) : ∀ {plan p : List Joint} {s t : State} {ss : List State}, NoDummy plan → List.Forall₂ (Kept agents) plan p →
    Agree s t → Runs truth s plan ss → ∃ ts, Runs truth t p ts := by
  intro plan
  induction plan with
  | nil => intro p s t ss _ hk _ _; cases hk; exact ⟨[], rfl⟩
  | cons j js ih =>
    intro p s t ss hn hk ha h
    cases hk with
    | cons hj hjs =>
      obtain ⟨s', r, rfl, e, h⟩ := h
      obtain ⟨t', ht'⟩ := step_exists hT (hn j List.mem_cons_self) hj ha e
      obtain ⟨ts, hts⟩ := ih (fun x hx => hn x (List.mem_cons_of_mem _ hx)) hjs (step_agree hT ha e ht' hj) h
      exact ⟨t' :: ts, t', ts, rfl, ht', hts⟩

theorem forall_of_get {α β : Type} {R : α → β → Prop} : ∀ {l : List α} {m : List β}, m.length = l.length →
    (∀ (n : Nat) (a : α), l[n]? = some a → ∃ b, m[n]? = some b ∧ R a b) → List.Forall₂ R l m := by
  intro l
  induction l with
  | nil => intro m hl _; rw [List.length_eq_zero_iff.mp hl]; exact .nil
  | cons a l ih =>
    intro m hl h
    cases m with
    | nil => simp at hl
    | cons b m =>
      refine .cons ?_ (ih (by simpa using hl) fun n a' ha => by simpa using h (n + 1) a' (by simpa using ha))
      obtain ⟨b', hb, hr⟩ := h 0 a rfl
      simp only [List.getElem?_cons_zero, Option.some.injEq] at hb
      rw [hb]
      exact hr

theorem inserted {plan p q : List Joint} {agents : List String} (hl : ∀ j ∈ plan, j.length ≤ agents.length) {b : Bool} {pick : Nat → Nat} {draws : Nat → Draw}
    (h : insertDummy plan agents b pick draws = .ok (p, q)) : List.Forall₂ (Kept agents) plan p ∧
      (b = true → (∀ j ∈ plan, Slot.nop ∉ j) → p = plan) ∧ (b = true → (∃ j ∈ plan, Slot.nop ∈ j) → NoDummy plan → ∀ x, dummyAfter x p = true) := by
  obtain ⟨p', q', h1, h2, h3, _, h5, h6, _⟩ := C97_insertion plan agents hl b pick draws
  rw [h] at h1
  cases h1
  exact ⟨forall_of_get h2 h3, h5, h6⟩

/-! ### The files -/

/-- The problem of the enhanced data set. -/
def enhancedProblem (P : MaProblem) (coin : Bool) : MaProblem := ⟨P.init, P.goal ++ if coin then [dummyLit] else []⟩

/-- The files of a problem in the two data sets: the combined problem with and without the dummy goal, the plan with and without dummy actions, and the executions of
these plans. -/
structure Six (L : Library) (agents : List String) (r : Random) (d : Disk) (s : String) (P : MaProblem) (plan p : List Joint) (tr te : List State) : Prop where
  combined : L.combine s = .ok P
  converted : L.convert s = .ok plan
  changed : ∃ q, insertDummy plan agents r.coin r.pick r.draws = .ok (p, q)
  regular : d ⟨.regular, s, .problem⟩ = some (.problem P) ∧ d ⟨.regular, s, .plan⟩ = some (.plan plan) ∧ d ⟨.regular, s, .trajectory⟩ = some (.trajectory tr)
  enhanced : d ⟨.enhanced, s, .problem⟩ = some (.problem (enhancedProblem P r.coin)) ∧ d ⟨.enhanced, s, .plan⟩ = some (.plan p) ∧
    d ⟨.enhanced, s, .trajectory⟩ = some (.trajectory te)
  executed : L.execute (enhancedProblem P r.coin) plan = .ok tr ∧ L.execute (enhancedProblem P r.coin) p = .ok te

theorem put_get (d : Disk) (f : Folder) (s : String) (k : Kind) (c : Content) (q : Path) : put d f s k c q = if q = ⟨f, s, k⟩ then some c else d q := rfl

theorem createOne_ok {L : Library} {agents : List String} {r : Random} {d d' : Disk} {s : String} (h : createOne L agents r d s = (d', none)) :
    (∃ P plan p tr te, Six L agents r d' s P plan p tr te) ∧ ∀ q : Path, q.stem ≠ s → d' q = d q := by
  unfold createOne at h
  cases hP : L.combine s with
  | error e => rw [hP] at h; cases h
  | ok P =>
  cases hplan : L.convert s with
  | error e => rw [hP, hplan] at h; cases h
  | ok plan =>
  rw [hP, hplan] at h
  dsimp only at h
  have he : (if r.coin = true then ({ P with goal := P.goal ++ [dummyLit] } : MaProblem) else P) = enhancedProblem P r.coin := by
    unfold enhancedProblem
    cases r.coin <;> simp
  rw [he] at h
  cases hi : insertDummy plan agents r.coin r.pick r.draws with
  | error e => rw [hi] at h; cases h
  | ok pq =>
  obtain ⟨p, q⟩ := pq
  rw [hi] at h
  dsimp only at h
  unfold exportTrajectory at h
  rw [show (put (put (put (put d .regular s .problem (.problem P)) .regular s .plan (.plan plan)) .enhanced s .problem
    (.problem (enhancedProblem P r.coin))) .enhanced s .plan (.plan p)) ⟨.regular, s, .plan⟩ = some (.plan plan) by simp [put_get]] at h
  dsimp only at h
  cases htr : L.execute (enhancedProblem P r.coin) plan with
  | error e => rw [htr] at h; cases h
  | ok tr =>
  rw [htr] at h
  dsimp only at h
  rw [show (put (put (put (put (put d .regular s .problem (.problem P)) .regular s .plan (.plan plan)) .enhanced s .problem
    (.problem (enhancedProblem P r.coin))) .enhanced s .plan (.plan p)) .regular s .trajectory (.trajectory tr)) ⟨.enhanced, s, .plan⟩ = some (.plan p) by
      simp [put_get]] at h
  dsimp only at h
  cases hte : L.execute (enhancedProblem P r.coin) p with
  | error e => rw [hte] at h; cases h
  | ok te =>
  rw [hte] at h
  simp only [Prod.mk.injEq, and_true] at h
  subst h
  refine ⟨⟨P, plan, p, tr, te, hP, hplan, ⟨q, hi⟩, ?_, ?_, htr, hte⟩, ?_⟩
  · simp [put_get]
  · simp [put_get]
  · intro q hq
    have : ∀ f k, q ≠ ⟨f, s, k⟩ := by rintro f k rfl; exact hq rfl
    simp [put_get, this]

theorem Six.congr {L : Library} {agents : List String} {r : Random} {d d' : Disk} {s : String} {P : MaProblem} {plan p : List Joint} {tr te : List State}
    (h : Six L agents r d s P plan p tr te) (hd : ∀ f k, d' ⟨f, s, k⟩ = d ⟨f, s, k⟩) : Six L agents r d' s P plan p tr te :=
  ⟨h.combined, h.converted, h.changed, by simpa only [hd] using h.regular, by simpa only [hd] using h.enhanced, h.executed⟩

/-- **C130, the files.** When the creation ends without an exception, whatever was in the folders before, each problem has its six files: in the regular data set the
problem and the plan as they were combined and read, in the enhanced one those with the dummy goal and the dummy actions, each with the execution of its own plan.
No file of another name is touched. -/
theorem C130_files {L : Library} {agents : List String} {r : String → Random} : ∀ {names : List String} {d d' : Disk}, names.Nodup →
    createAll L agents r d names = (d', none) →
    (∀ s ∈ names, ∃ P plan p tr te, Six L agents (r s) d' s P plan p tr te) ∧ ∀ q : Path, q.stem ∉ names → d' q = d q := by
  intro names
  induction names with
  | nil => intro d d' _ h; cases h; exact ⟨by simp, fun _ _ => rfl⟩
  | cons n ns ih =>
    intro d d' hn h
    obtain ⟨n1, n2⟩ := List.nodup_cons.mp hn
    unfold createAll at h
    rcases hc : createOne L agents (r n) d n with ⟨d1, e⟩
    rw [hc] at h
    cases e with
    | some e => cases h
    | none =>
      dsimp only at h
      obtain ⟨⟨P, plan, p, tr, te, h6⟩, ho⟩ := createOne_ok hc
      obtain ⟨k1, k2⟩ := ih n2 h
      refine ⟨?_, ?_⟩
      · intro s hs
        rcases List.mem_cons.mp hs with rfl | hs
        · exact ⟨P, plan, p, tr, te, h6.congr fun f k => k2 ⟨f, s, k⟩ n1⟩
        · exact k1 s hs
      · intro q hq
        rw [List.mem_cons, not_or] at hq
        rw [k2 q hq.2, ho q hq.1]

/-- The library executes plans as real joint transitions. -/
def Executes (L : Library) (truth : String → Schema) : Prop := ∀ P plan ts, L.execute P plan = .ok ts → Runs truth P.init plan ts

/-- A goal holds. -/
def Reached (goal : List Lit) (s : State) : Prop := ∀ l ∈ goal, holds s l

variable {L : Library} {r : Random} {d : Disk} {s : String} {P : MaProblem} {plan p : List Joint} {tr te : List State}

theorem Six.kept (h : Six L agents r d s P plan p tr te) (hl : ∀ j ∈ plan, j.length ≤ agents.length) : List.Forall₂ (Kept agents) plan p :=
  (inserted hl h.changed.choose_spec).1

theorem runs_length : ∀ {plan : List Joint} {s : State} {ts : List State}, Runs truth s plan ts → ts.length = plan.length := by
  intro plan
  induction plan with
  | nil => intro s ts h; rw [show ts = [] from h]; rfl
  | cons j js ih => rintro s ts ⟨t, r, rfl, _, h⟩; simp [ih h]

theorem getLast_agree {ss ts : List State} (h : List.Forall₂ Agree ss ts) : ∀ (x : State), Agree (ss.getLastD x) (ts.getLastD x) := by
  induction h with
  | nil => intro x; exact Agree.refl x
  | cons hab _ ih =>
    rename_i a b l m hlm
    intro x
    rw [List.getLastD_cons, List.getLastD_cons]
    cases hlm with
    | nil => exact hab
    | cons h1 h2 =>
      rename_i a' b' l' m'
      have := ih x
      rw [List.getLastD_cons, List.getLastD_cons] at this
      rw [List.getLastD_cons, List.getLastD_cons]
      exact this

/-- **C130, the two trajectories.** The enhanced trajectory goes through as many states as the regular one, and state by state they differ in nothing but the dummy
predicate, which never changes in the regular one; at each step the agents that act in the regular plan do the same in the enhanced plan. -/
theorem C130_states (hT : WithDummies truth) (hL : Executes L truth) (h : Six L agents r d s P plan p tr te) (hn : NoDummy plan)
    (hl : ∀ j ∈ plan, j.length ≤ agents.length) :
    tr.length = plan.length ∧ List.Forall₂ Agree tr te ∧ (∀ t ∈ tr, δ ∈ t ↔ δ ∈ P.init) ∧
    ∀ (i : Nat) (j j' : Joint), plan[i]? = some j → p[i]? = some j' → ∀ k ∈ callsOf j, k ∈ callsOf j' := by
  have h1 := hL _ _ _ h.executed.1
  have h2 := hL _ _ _ h.executed.2
  have hk := h.kept hl
  refine ⟨runs_length h1, runs_agree hT hk (Agree.refl _) h1 h2, ?_, ?_⟩
  · have : ∀ {plan : List Joint} {x : State} {ts : List State}, NoDummy plan → Runs truth x plan ts → ∀ t ∈ ts, δ ∈ t ↔ δ ∈ x := by
      intro plan
      induction plan with
      | nil => intro x ts _ h t ht; rw [show ts = [] from h] at ht; simp at ht
      | cons j js ih =>
        rintro x ts hn ⟨y, r, rfl, e, h⟩ t ht
        have hstep := dummy_after_step (agents := []) hT (j := j) (j' := j) (hn j List.mem_cons_self) (.inl rfl) e
        have hno : NoDummy [j] := by intro z hz; rw [List.mem_singleton.mp hz]; exact hn j List.mem_cons_self
        unfold dummyStep at hstep
        rw [dummyAfter_noDummy hno] at hstep
        have hy : δ ∈ y ↔ δ ∈ x := decide_eq_decide.mp hstep
        rcases List.mem_cons.mp ht with rfl | ht
        · exact hy
        · exact (ih (fun z hz => hn z (List.mem_cons_of_mem _ hz)) h t ht).trans hy
    exact this hn h1
  · intro i j j' hj hj' k hkk
    have hf : ∀ {l m : List Joint}, List.Forall₂ (Kept agents) l m → ∀ (i : Nat) (j j' : Joint), l[i]? = some j → m[i]? = some j' → Kept agents j j' := by
      intro l m h
      induction h with
      | nil => intro i j j' h _; simp at h
      | cons hab _ ih =>
        intro i j j' h1 h2
        cases i with
        | zero => simp only [List.getElem?_cons_zero, Option.some.injEq] at h1 h2; rw [← h1, ← h2]; exact hab
        | succ i => exact ih i j j' (by simpa using h1) (by simpa using h2)
    exact kept_sub (hf hk i j j' hj hj') hkk

/-- **C130, the goals.** If the regular plan reaches the goal of the regular problem, then the enhanced plan reaches that of the enhanced problem, provided that some
agent is idle at some step whenever the dummy predicate was put into the goal. -/
theorem C130_goals (hT : WithDummies truth) (hL : Executes L truth) (h : Six L agents r d s P plan p tr te) (hn : NoDummy plan)
    (hl : ∀ j ∈ plan, j.length ≤ agents.length) (hg : ∀ l ∈ P.goal, l.name ≠ dp) (hr : Reached P.goal (tr.getLastD P.init))
    (hidle : r.coin = true → ∃ j ∈ plan, Slot.nop ∈ j) : Reached (enhancedProblem P r.coin).goal (te.getLastD P.init) := by
  have h1 := hL _ _ _ h.executed.1
  have h2 := hL _ _ _ h.executed.2
  have hk := h.kept hl
  have ha := getLast_agree (runs_agree hT hk (Agree.refl _) h1 h2) P.init
  intro l hlm
  unfold enhancedProblem at hlm
  dsimp only at hlm
  rcases List.mem_append.mp hlm with hm | hm
  · exact (ha.holds (hg l hm)).mp (hr l hm)
  · cases hc : r.coin with
    | false => rw [hc] at hm; simp at hm
    | true =>
      rw [hc] at hm
      have e : l = dummyLit := by simpa using hm
      rw [e]
      have hd := dummy_after_runs hT hn hk h2
      obtain ⟨q, hi⟩ := h.changed
      rw [(inserted hl hi).2.2 hc (hidle hc) hn] at hd
      have hd : decide (δ ∈ te.getLastD P.init) = true := hd
      show (true = true ↔ δ ∈ _)
      exact ⟨fun _ => of_decide_eq_true hd, fun _ => rfl⟩

/-- **C130, a limit.** If no agent is ever idle and the dummy predicate, which did not hold at first, was put into the goal, then the enhanced plan does not reach the
goal of its own problem. -/
theorem C130_goal_missed (hT : WithDummies truth) (hL : Executes L truth) (h : Six L agents r d s P plan p tr te) (hn : NoDummy plan)
    (hl : ∀ j ∈ plan, j.length ≤ agents.length) (hc : r.coin = true) (hbusy : ∀ j ∈ plan, Slot.nop ∉ j) (hi : δ ∉ P.init) :
    ¬ Reached (enhancedProblem P r.coin).goal (te.getLastD P.init) := by
  have h2 := hL _ _ _ h.executed.2
  have hk := h.kept hl
  have hd := dummy_after_runs hT hn hk h2
  obtain ⟨q, hq⟩ := h.changed
  rw [(inserted hl hq).2.1 hc hbusy, dummyAfter_noDummy hn] at hd
  intro hr
  have := hr dummyLit (by unfold enhancedProblem; rw [hc]; simp)
  have hm : δ ∈ te.getLastD P.init := by
    have : (true = true ↔ δ ∈ te.getLastD P.init) := this
    exact this.mp rfl
  have : (enhancedProblem P r.coin).init = P.init := rfl
  rw [this] at hd
  rw [decide_eq_true hm] at hd
  exact hi (of_decide_eq_true hd.symm)

/-- **C130, the enhanced plan can be executed.** Whenever the regular plan can be executed from a state, so can the plan with dummy actions. -/
theorem C130_executable (hT : WithDummies truth) {plan p q : List Joint} (hn : NoDummy plan) (hl : ∀ j ∈ plan, j.length ≤ agents.length) {b : Bool}
    {pick : Nat → Nat} {draws : Nat → Draw} (h : insertDummy plan agents b pick draws = .ok (p, q)) {s : State} {ss : List State} (hr : Runs truth s plan ss) :
    ∃ ts, Runs truth s p ts ∧ List.Forall₂ Agree ss ts := by
  have hk := (inserted hl h).1
  obtain ⟨ts, hts⟩ := runs_exists hT hn hk (Agree.refl s) hr
  exact ⟨ts, hts, runs_agree hT hk (Agree.refl s) hr hts⟩

/-- **C130, no exception.** If the problems and the plans of all folders can be read, the plans can be executed and call no dummy action, and the library executes what
can be executed, then the creation ends without an exception, whatever the random numbers. -/
theorem C130_succeeds (hT : WithDummies truth) (hE : ∀ P plan ts, Runs truth P.init plan ts → ∃ ts', L.execute P plan = .ok ts') {r : String → Random} :
    ∀ {names : List String} {d : Disk}, (∀ s ∈ names, ∃ P plan ts, L.combine s = .ok P ∧ L.convert s = .ok plan ∧ Runs truth P.init plan ts ∧ NoDummy plan ∧
      ∀ j ∈ plan, j.length ≤ agents.length) → ∃ d', createAll L agents r d names = (d', none) := by
  intro names
  induction names with
  | nil => intro d _; exact ⟨d, rfl⟩
  | cons n ns ih =>
    intro d h
    obtain ⟨P, plan, ts, hP, hplan, hr, hn, hl⟩ := h n List.mem_cons_self
    have h1 : ∃ d1, createOne L agents (r n) d n = (d1, none) := by
      obtain ⟨p, q, hi, _⟩ := C97_insertion plan agents hl (r n).coin (r n).pick (r n).draws
      obtain ⟨us, hu, _⟩ := C130_executable hT hn hl hi hr
      have he : (if (r n).coin = true then ({ P with goal := P.goal ++ [dummyLit] } : MaProblem) else P) = enhancedProblem P (r n).coin := by
        unfold enhancedProblem
        cases (r n).coin <;> simp
      obtain ⟨tr, htr⟩ := hE (enhancedProblem P (r n).coin) plan ts hr
      obtain ⟨te, hte⟩ := hE (enhancedProblem P (r n).coin) p us hu
      unfold createOne
      rw [hP, hplan]
      dsimp only
      rw [he, hi]
      dsimp only
      unfold exportTrajectory
      rw [show (MaDatasets.put (MaDatasets.put (MaDatasets.put (MaDatasets.put d .regular n .problem (.problem P)) .regular n .plan (.plan plan)) .enhanced n .problem
        (.problem (enhancedProblem P (r n).coin))) .enhanced n .plan (.plan p)) ⟨.regular, n, .plan⟩ = some (.plan plan) by simp [put_get]]
      dsimp only
      rw [htr]
      dsimp only
      rw [show (MaDatasets.put (MaDatasets.put (MaDatasets.put (MaDatasets.put (MaDatasets.put d .regular n .problem (.problem P)) .regular n .plan (.plan plan)) .enhanced n .problem
        (.problem (enhancedProblem P (r n).coin))) .enhanced n .plan (.plan p)) .regular n .trajectory (.trajectory tr)) ⟨.enhanced, n, .plan⟩ = some (.plan p) by
          simp [put_get]]
      dsimp only
      rw [hte]
      exact ⟨_, rfl⟩
    obtain ⟨d1, h1⟩ := h1
    obtain ⟨d2, h2⟩ := ih (d := d1) fun s hs => h s (List.mem_cons_of_mem _ hs)
    refine ⟨d2, ?_⟩
    unfold createAll
    rw [h1]
    exact h2

/-! ### Concrete cases: two agents, one of them loads a parcel while the other is idle or not. -/
end MaDatasets
namespace MaDatasets.Case
open Model Spec Model.Dummy Model.MaDatasets Props.Dummy

def truth (a : String) : Schema :=
  if a = addName then ⟨[("?a", ⟨"agent", []⟩)], ∅, {⟨dp, [], true⟩}⟩
  else if a = delName then ⟨[("?a", ⟨"agent", []⟩)], ∅, {⟨dp, [], false⟩}⟩
  else ⟨[("?a", ⟨"agent", []⟩)], {⟨"free", ["?a"], true⟩}, {⟨"free", ["?a"], false⟩, ⟨"loaded", ["?a"], true⟩}⟩

theorem withDummies : WithDummies truth := by
  refine ⟨by decide, by decide, ?_⟩
  intro a h1 h2 l hl
  unfold truth at hl
  rw [if_neg h1, if_neg h2] at hl
  revert l
  decide

def init : State := {⟨"free", ["r1"]⟩, ⟨"free", ["r2"]⟩}
def problem : MaProblem := ⟨init, [⟨"loaded", ["r1"], true⟩]⟩
def busy : MaProblem := ⟨init, [⟨"loaded", ["r1"], true⟩, ⟨"loaded", ["r2"], true⟩]⟩
def plan : List Joint := [[.call "load" ["r1"], .nop]]
def busyPlan : List Joint := [[.call "load" ["r1"], .call "load" ["r2"]]]

open Classical in
/-- A library that executes what can be executed. -/
noncomputable def lib : Library where
  combine s := if s = "p1" then .ok problem else .ok busy
  convert s := if s = "p1" then .ok plan else .ok busyPlan
  execute P q := if h : ∃ ts, Runs truth P.init q ts then .ok h.choose else .error .valueError

theorem executes : Executes lib truth := by
  intro P q ts h
  unfold lib at h
  dsimp only at h
  split at h
  · rename_i hx
    cases h
    exact hx.choose_spec
  · cases h

theorem complete : ∀ P q ts, Runs truth P.init q ts → ∃ ts', lib.execute P q = .ok ts' := by
  intro P q ts h
  unfold lib
  dsimp only
  rw [dif_pos ⟨ts, h⟩]
  exact ⟨_, rfl⟩

def after : State := {⟨"free", ["r2"]⟩, ⟨"loaded", ["r1"]⟩}
def afterBusy : State := {⟨"loaded", ["r1"]⟩, ⟨"loaded", ["r2"]⟩}

/-- The frame condition by the two differences of the states. -/
theorem frame_of {T : String → Schema} {s t : State} {calls : List Call}
    (hadd : ∀ a ∈ t, a ∉ s → ∃ k ∈ calls, ∃ e ∈ (T k.name).eff, ground (callSubst T k) e = ⟨a.name, a.args, true⟩)
    (hdel : ∀ a ∈ s, a ∉ t → ∃ k ∈ calls, ∃ e ∈ (T k.name).eff, ground (callSubst T k) e = ⟨a.name, a.args, false⟩) (g : Lit) (h1 : holds t g) (h2 : ¬ holds s g) :
    ∃ k ∈ calls, ∃ e ∈ (T k.name).eff, ground (callSubst T k) e = g := by
  obtain ⟨n, as, b⟩ := g
  unfold Spec.holds at h1 h2
  cases b with
  | true => exact hadd ⟨n, as⟩ (by simpa [Lit.atom] using h1) (by simpa [Lit.atom] using h2)
  | false => exact hdel ⟨n, as⟩ (by simpa [Lit.atom] using h2) (by simpa [Lit.atom] using h1)

theorem runs : Runs truth init plan [after] := by
  refine ⟨after, [], rfl, ⟨by decide, ?_, by decide, ?_⟩, rfl⟩
  · unfold applicable; decide
  · exact frame_of (by decide) (by decide)

theorem runsBusy : Runs truth init busyPlan [afterBusy] := by
  refine ⟨afterBusy, [], rfl, ⟨by decide, ?_, by decide, ?_⟩, rfl⟩
  · unfold applicable; decide
  · exact frame_of (by decide) (by decide)

theorem noDummy : NoDummy plan ∧ NoDummy busyPlan := by
  constructor <;> (intro j hj ps; rw [List.mem_singleton.mp hj]; simp [addName, delName])

def r : String → Random := fun _ => ⟨true, fun _ => 0, fun _ => ⟨false, false, 0⟩⟩

/-- Both problems are created. -/
theorem created : ∃ d', createAll lib ["r1", "r2"] r (fun _ => none) ["p1", "p2"] = (d', none) := by
  refine C130_succeeds withDummies complete ?_
  intro s hs
  simp only [List.mem_cons, List.not_mem_nil, or_false] at hs
  rcases hs with rfl | rfl
  · exact ⟨problem, plan, [after], by simp [lib], by simp [lib], runs, noDummy.1, by decide⟩
  · exact ⟨busy, busyPlan, [afterBusy], by simp [lib], by simp [lib], runsBusy, noDummy.2, by decide⟩

/-- The hypotheses of the theorems are met by the first problem, whose enhanced plan reaches its goal, and by the second, whose enhanced plan misses it. -/
example : ∃ d' p tr te, Six lib ["r1", "r2"] (r "p1") d' "p1" problem plan p tr te ∧ p = [[.call "load" ["r1"], .call addName ["r2"]]] ∧
    Reached problem.goal (tr.getLastD init) ∧ Reached (enhancedProblem problem true).goal (te.getLastD init) := by
  obtain ⟨d', h⟩ := created
  obtain ⟨P, q, p, tr, te, h6⟩ := (C130_files (by decide) h).1 "p1" (by decide)
  have e1 : problem = P := by simpa [lib] using h6.combined
  have e2 : plan = q := by simpa [lib] using h6.converted
  subst e1 e2
  refine ⟨d', p, tr, te, h6, ?_, ?_⟩
  · obtain ⟨q, hq⟩ := h6.changed
    have : insertDummy plan ["r1", "r2"] (r "p1").coin (r "p1").pick (r "p1").draws =
      .ok ([[.call "load" ["r1"], .call addName ["r2"]]], [[.call "load" ["r1"], .call addName ["r2"]]]) := by rfl
    rw [this] at hq
    cases hq
    rfl
  · have hr : Reached problem.goal (tr.getLastD init) := by
      obtain ⟨t, l, rfl, hj, hl⟩ := executes _ _ _ h6.executed.1
      rw [show l = [] from hl]
      intro l hl
      rw [List.mem_singleton.mp hl]
      exact hj.effects ⟨"load", ["r1"]⟩ (show _ ∈ callsOf [Slot.call "load" ["r1"], Slot.nop] by decide) ⟨"loaded", ["?a"], true⟩ (by decide)
    exact ⟨hr, C130_goals withDummies executes h6 noDummy.1 (by decide) (by decide) hr (by decide)⟩

example : ∃ d' p tr te, Six lib ["r1", "r2"] (r "p2") d' "p2" busy busyPlan p tr te ∧ ¬ Reached (enhancedProblem busy true).goal (te.getLastD init) := by
  obtain ⟨d', h⟩ := created
  obtain ⟨P, q, p, tr, te, h6⟩ := (C130_files (by decide) h).1 "p2" (by decide)
  have e1 : busy = P := by simpa [lib] using h6.combined
  have e2 : busyPlan = q := by simpa [lib] using h6.converted
  subst e1 e2
  exact ⟨d', p, tr, te, h6, C130_goal_missed withDummies executes h6 noDummy.2 (by decide) rfl (by decide) (by decide)⟩

end MaDatasets.Case
end Props
