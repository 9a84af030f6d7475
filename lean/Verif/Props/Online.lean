import Verif.Lemmas.Online

/-! C30-C33, C51: learning the discrete part of an action online, from successful and failed attempts. -/
namespace Props
open Model Spec

/-- The learner after a history of attempts at one action. -/
def learned (V : Finset Lit) (h : List Attempt) : DiscreteOnline := (DiscreteOnline.init V).feed h

section
variable {V : Finset Lit} {h : List Attempt}

theorem learned_superset : (learned V h).superset = V := (onlineInv V h).superset

/-- **C30.** The safe model accepts a state exactly when every conjunctive precondition that explains the attempts holds in it;
in particular the true one does. -/
theorem C30_safe_exact (hne : ∃ T, PreConsistent V h T) (ρ : String → String) (s : State) :
    (learned V h).inSafe (seen V ρ s) = true ↔ ∀ T, PreConsistent V h T → applicable T ρ s := by
  have inv := onlineInv V h
  obtain ⟨T0, h0⟩ := hne
  unfold DiscreteOnline.inSafe learned
  rw [decide_eq_true_eq, inv.superset]
  constructor
  · intro hs T hT l hl
    refine (mem_seen.mp (hs (Finset.mem_sdiff.mpr ⟨hT.1 hl, fun hn => ?_⟩))).2
    have := ((inv.space T hT.1).mp hT).1
    have hm : l ∈ T ∩ ((DiscreteOnline.init V).feed h).cannotPre := Finset.mem_inter.mpr ⟨hl, hn⟩
    rw [this] at hm; simp at hm
  · intro hs
    exact (applicable_iff_subset Finset.sdiff_subset).mp (hs _ (inv.largest h0))

/-- C30 for the exported precondition: it is itself consistent, contains every consistent one, and accepts the states that
`is_state_in_safe_model` accepts. -/
theorem C30_safe_precondition :
    (∀ T, PreConsistent V h T → T ⊆ (learned V h).safeModel.1 ∧ PreConsistent V h (learned V h).safeModel.1) ∧
    ∀ ρ s, applicable (learned V h).safeModel.1 ρ s ↔ (learned V h).inSafe (seen V ρ s) = true := by
  have inv := onlineInv V h
  have e : (learned V h).safeModel.1 = V \ (learned V h).cannotPre := by
    unfold DiscreteOnline.safeModel; rw [learned_superset]
  refine ⟨fun T hT => ⟨fun l hl => ?_, ?_⟩, fun ρ s => ?_⟩
  · rw [e]
    refine Finset.mem_sdiff.mpr ⟨hT.1 hl, fun hn => ?_⟩
    have := ((inv.space T hT.1).mp hT).1
    have hm : l ∈ T ∩ (learned V h).cannotPre := Finset.mem_inter.mpr ⟨hl, hn⟩
    unfold learned at hm
    rw [this] at hm; simp at hm
  · rw [e]; exact inv.largest hT
  · rw [e, applicable_iff_subset Finset.sdiff_subset]
    unfold DiscreteOnline.inSafe
    rw [decide_eq_true_eq, learned_superset]

/-- **C31.** A state is declared not applicable exactly when every precondition that explains the attempts rejects it. -/
theorem C31_not_applicable_exact (ρ : String → String) (s : State) :
    (learned V h).notApplicable (seen V ρ s) = true ↔ ∀ T, PreConsistent V h T → ¬ applicable T ρ s := by
  have inv := onlineInv V h
  have hm : (learned V h).notApplicable (seen V ρ s) = true ↔ ∃ c ∈ (learned V h).mustPre, seen V ρ s ∩ c = ∅ := by
    unfold DiscreteOnline.notApplicable
    simp only [Bool.and_eq_true, decide_eq_true_eq, List.any_eq_true, Finset.card_eq_zero]
    constructor
    · exact fun h => h.2
    · rintro ⟨c, hc, h⟩; exact ⟨List.length_pos_of_mem hc, c, hc, h⟩
  rw [hm]
  constructor
  · rintro ⟨c, hc, he⟩ T hT ha
    obtain ⟨l, hl, hlc⟩ := ((inv.space T hT.1).mp hT).2 c hc
    have : l ∈ seen V ρ s ∩ c := Finset.mem_inter.mpr ⟨mem_seen.mpr ⟨hT.1 hl, ha l hl⟩, hlc⟩
    rw [he] at this; simp at this
  · intro hall
    by_contra hno
    push Not at hno
    have hsub : seen V ρ s \ (learned V h).cannotPre ⊆ V := fun l hl => (mem_seen.mp (Finset.mem_sdiff.mp hl).1).1
    refine hall (seen V ρ s \ (learned V h).cannotPre) ((inv.space _ hsub).mpr ⟨?_, ?_⟩) fun l hl =>
      (mem_seen.mp (Finset.mem_sdiff.mp hl).1).2
    · ext x; simp only [Finset.mem_inter, Finset.mem_sdiff, Finset.notMem_empty, iff_false]
      exact fun hx => hx.1.2 hx.2
    · intro c hc
      obtain ⟨l, hl⟩ := hno c hc
      rw [Finset.mem_inter] at hl
      exact ⟨l, Finset.mem_sdiff.mpr ⟨hl.1, (Finset.mem_sdiff.mp (inv.clauses c hc hl.2)).2⟩, hl.2⟩

/-- C31: every recorded clause contains a true precondition. -/
theorem C31_clauses (T : Finset Lit) (hT : PreConsistent V h T) : ∀ c ∈ (learned V h).mustPre, ∃ l ∈ c, l ∈ T := by
  intro c hc
  obtain ⟨l, h1, h2⟩ := (((onlineInv V h).space T hT.1).mp hT).2 c hc
  exact ⟨l, h2, h1⟩

/-- **C32.** The optimistic precondition accepts a state exactly when some precondition that explains the attempts holds in it;
in particular it accepts every state the true one accepts. -/
theorem C32_optimistic_exact {add : Cond → Cond → Cond} {ord : LitOrd} (hadd : AddOK add) (ho : EnumNodup ord)
    (hne : ∃ T, PreConsistent V h T) (ρ : String → String) (s : State) :
    Cond.eval (fun l => holds s (ground ρ l)) ((learned V h).optimisticModel add ord).1 ↔
      ∃ T, PreConsistent V h T ∧ applicable T ρ s := by
  have hv : Valuation (fun l => holds s (ground ρ l)) := by
    intro l
    unfold holds
    cases hp : l.pos <;> simp [ground, hp, Lit.neg, Lit.atom]
  have inv := onlineInv V h
  have hcl : ∀ c ∈ (learned V h).mustPre, ∃ k, optimisticClause add ord c = some k ∧
      (Cond.eval (fun l => holds s (ground ρ l)) k ↔ ∃ l ∈ c, holds s (ground ρ l)) := by
    intro c hc
    obtain ⟨T, hT⟩ := hne
    obtain ⟨l0, h1, _⟩ := C31_clauses T hT c hc
    unfold optimisticClause
    rw [if_neg (by rw [Finset.card_eq_zero]; rintro rfl; simp at h1)]
    split
    · rename_i h1
      obtain ⟨x, rfl⟩ := Finset.card_eq_one.mp h1
      have hm : ∀ y, y ∈ ord {x} ↔ y = x := by intro y; rw [ho.mem]; simp
      cases ho' : ord {x} with
      | nil => have := (hm x).mpr rfl; rw [ho'] at this; simp at this
      | cons y ys =>
        have : y = x := (hm y).mp (by rw [ho']; simp)
        subst this
        exact ⟨.lit y, rfl, by simp [Cond.eval]⟩
    · exact ⟨_, rfl, by rw [nodeOf_or hadd hv]; simp only [ho.mem]⟩
  have heval : Cond.eval (fun l => holds s (ground ρ l)) ((learned V h).optimisticModel add ord).1 ↔
      ∀ c ∈ (learned V h).mustPre, ∃ l ∈ c, holds s (ground ρ l) := by
    unfold DiscreteOnline.optimisticModel
    obtain ⟨ks, e1, e2⟩ := foldAdd_and hadd hv id ((learned V h).mustPre.filterMap (optimisticClause add ord)) []
    simp only [id] at e1 e2
    rw [e1, e2]
    simp only [Cond.eval, Cond.evalAll, true_and, List.mem_filterMap]
    constructor
    · intro hk c hc
      obtain ⟨k, k1, k2⟩ := hcl c hc
      exact k2.mp (hk k ⟨c, hc, k1⟩)
    · rintro hc k ⟨c, hcm, hk⟩
      obtain ⟨k', k1, k2⟩ := hcl c hcm
      rw [hk] at k1
      simp only [Option.some.injEq] at k1
      subst k1
      exact k2.mpr (hc c hcm)
  have hna := C31_not_applicable_exact (V := V) (h := h) ρ s
  have hm : (learned V h).notApplicable (seen V ρ s) = true ↔ ∃ c ∈ (learned V h).mustPre, ∀ l ∈ c, ¬ holds s (ground ρ l) := by
    unfold DiscreteOnline.notApplicable
    simp only [Bool.and_eq_true, decide_eq_true_eq, List.any_eq_true, Finset.card_eq_zero]
    constructor
    · rintro ⟨_, c, hc, he⟩
      refine ⟨c, hc, fun l hl hh => ?_⟩
      have : l ∈ seen V ρ s ∩ c :=
        Finset.mem_inter.mpr ⟨mem_seen.mpr ⟨(Finset.mem_sdiff.mp (inv.clauses c hc hl)).1, hh⟩, hl⟩
      rw [he] at this; simp at this
    · rintro ⟨c, hc, hl⟩
      refine ⟨List.length_pos_of_mem hc, c, hc, ?_⟩
      ext x; simp only [Finset.mem_inter, Finset.notMem_empty, iff_false]
      exact fun hx => hl x hx.2 (mem_seen.mp hx.1).2
  rw [heval]
  rw [hm] at hna
  constructor
  · intro hall
    by_contra hno
    push Not at hno
    obtain ⟨c, hc, hl⟩ := hna.mpr hno
    obtain ⟨l, h1, h2⟩ := hall c hc
    exact hl l h1 h2
  · rintro ⟨T, hT, ha⟩ c hc
    obtain ⟨l, h1, h2⟩ := C31_clauses T hT c hc
    exact ⟨l, h1, ha l h2⟩

theorem effs_of {E : Finset Lit} (hE : EffTrue V h E) : ∀ l ∈ E, l ∉ (learned V h).cannotEff := by
  intro l hl hn
  obtain ⟨a, ha, hok, hs⟩ := ((onlineInv V h).cannotEff l).mp hn
  have := hE.next a ha hok
  have h1 : holds a.after (ground a.ρ l) := by
    rw [this]
    exact holds_successor (S := fun x => ∃ l ∈ V, x ∈ l.args)
      (fun x y ⟨m, hm, hx⟩ ⟨m', hm', hy⟩ e => hE.inj a ha hok m hm m' hm' x hx y hy e)
      (fun m hm x hx => ⟨m, hE.sub hm, hx⟩) hE.consistent hl
  have h2 := (mem_seen.mp hs).2
  unfold holds at h1 h2
  cases hp : l.pos <;> simp [ground, hp, Lit.neg, Lit.atom] at h1 h2 <;> contradiction

theorem must_of {E : Finset Lit} (hE : EffTrue V h E) {l : Lit}
    (hx : ∃ a ∈ h, a.ok = true ∧ l ∈ seen V a.ρ a.after ∧ l ∉ seen V a.ρ a.before) : l ∈ E := by
  obtain ⟨a, ha, hok, h1, h2⟩ := hx
  rw [mem_seen] at h1 h2
  have hb : ¬ holds a.before (ground a.ρ l) := fun hh => h2 ⟨h1.1, hh⟩
  have h1' := h1.2
  rw [hE.next a ha hok] at h1'
  exact eff_of_change (S := fun x => ∃ l ∈ V, x ∈ l.args)
    (fun x y ⟨m, hm, hx⟩ ⟨m', hm', hy⟩ e => hE.inj a ha hok m hm m' hm' x hx y hy e)
    (fun m hm x hx => ⟨m, hE.sub hm, hx⟩) (fun x hx => ⟨l, h1.1, hx⟩) h1' hb

/-- **C33.** The effects of the safe model are true effects. -/
theorem C33_safe_effects {E : Finset Lit} (hE : EffTrue V h E) : (learned V h).safeModel.2 ⊆ E :=
  fun _ hl => must_of hE ((onlineInv V h).mustEff _ hl)

/-- **C33.** Every true effect is an optimistic effect, once a success has been observed after which some literal of the
vocabulary held. -/
theorem C33_optimistic_effects {add : Cond → Cond → Cond} {ord : LitOrd} {E : Finset Lit} (hE : EffTrue V h E)
    (hobs : ∃ a ∈ h, a.ok = true ∧ (seen V a.ρ a.after).Nonempty) : E ⊆ ((learned V h).optimisticModel add ord).2 := by
  unfold DiscreteOnline.optimisticModel
  have hne : ¬ (learned V h).cannotEff.card = 0 := by
    obtain ⟨a, ha, hok, l, hl⟩ := hobs
    rw [Finset.card_eq_zero]
    intro h0
    have : l.neg ∈ (learned V h).cannotEff := ((onlineInv V h).cannotEff _).mpr ⟨a, ha, hok, by rwa [Lit.neg_neg]⟩
    rw [h0] at this; simp at this
  rw [if_neg hne, learned_superset]
  exact fun l hl => Finset.mem_sdiff.mpr ⟨hE.sub hl, effs_of hE l hl⟩

/-- C33: in every state the safe model accepts, its effects lead to the true next state, although some true effects may never
have been seen to change anything. -/
theorem C33_safe_next_state {E : Finset Lit} (hE : EffTrue V h E) {ρ : String → String} (hρ : InjectiveOn V ρ) {s : State}
    (hs : applicable (learned V h).safeModel.1 ρ s) : successor (learned V h).safeModel.2 ρ s = successor E ρ s := by
  have inv := onlineInv V h
  refine successor_eq (S := fun x => ∃ l ∈ V, x ∈ l.args)
    (fun x y ⟨m, hm, hx⟩ ⟨m', hm', hy⟩ e => hρ m hm m' hm' x hx y hy e)
    (fun m hm x hx => ⟨m, hE.sub hm, hx⟩) hE.consistent (C33_safe_effects hE) fun e he hn => ?_
  have hne := effs_of hE e he
  refine hs e ?_
  change e ∈ (learned V h).superset \ (learned V h).cannotPre
  rw [learned_superset]
  refine Finset.mem_sdiff.mpr ⟨hE.sub he, fun hc => hn ?_⟩
  obtain ⟨_, a, ha, hok, hb⟩ := (inv.cannotPre e).mp hc
  refine inv.mustEff' e ⟨a, ha, hok, ?_, fun hh => hb (mem_seen.mp hh).2⟩ hne
  refine mem_seen.mpr ⟨hE.sub he, ?_⟩
  rw [hE.next a ha hok]
  exact holds_successor (S := fun x => ∃ l ∈ V, x ∈ l.args)
    (fun x y ⟨m, hm, hx⟩ ⟨m', hm', hy⟩ e => hE.inj a ha hok m hm m' hm' x hx y hy e)
    (fun m hm x hx => ⟨m, hE.sub hm, hx⟩) hE.consistent he

/-- **C51.** The verdicts "applicable" and "not applicable" are never withdrawn while the attempts remain explainable, and the
state of every earlier success (failure) is recognised as applicable (not applicable). -/
theorem C51_monotone (h' : List Attempt) (hne : ∃ T, PreConsistent V (h ++ h') T) (ρ : String → String) (s : State) :
    ((learned V h).inSafe (seen V ρ s) = true → (learned V (h ++ h')).inSafe (seen V ρ s) = true) ∧
    ((learned V h).notApplicable (seen V ρ s) = true → (learned V (h ++ h')).notApplicable (seen V ρ s) = true) ∧
    ¬ ((learned V h).inSafe (seen V ρ s) = true ∧ (learned V h).notApplicable (seen V ρ s) = true) := by
  have mono : ∀ T, PreConsistent V (h ++ h') T → PreConsistent V h T :=
    fun T hT => ⟨hT.1, fun a ha => hT.2 a (List.mem_append_left _ ha)⟩
  obtain ⟨T0, h0⟩ := hne
  have hne' : ∃ T, PreConsistent V h T := ⟨T0, mono T0 h0⟩
  rw [C30_safe_exact hne', C30_safe_exact ⟨T0, h0⟩, C31_not_applicable_exact, C31_not_applicable_exact]
  exact ⟨fun hh T hT => hh T (mono T hT), fun hh T hT => hh T (mono T hT), fun hh => hh.2 T0 (mono T0 h0) (hh.1 T0 (mono T0 h0))⟩

theorem C51_past_attempts (hne : ∃ T, PreConsistent V h T) : ∀ a ∈ h,
    if a.ok = true then (learned V h).inSafe (seen V a.ρ a.before) = true
    else (learned V h).notApplicable (seen V a.ρ a.before) = true := by
  intro a ha
  split
  · rename_i hok
    exact (C30_safe_exact hne _ _).mpr fun T hT => (hT.2 a ha).mp hok
  · rename_i hok
    exact (C31_not_applicable_exact _ _).mpr fun T hT hap => hok ((hT.2 a ha).mpr hap)

end

/-! ### A concrete history -/

private def p : Lit := ⟨"p", ["?x"], true⟩
private def q : Lit := ⟨"q", ["?x"], true⟩
private def voc : Finset Lit := {p, p.neg, q, q.neg}
private def sub (x : String) : String := if x = "?x" then "a" else x
/-- The true action needs `p` and makes `q` true: a failure without `p`, then a success. -/
private def hist : List Attempt :=
  [⟨sub, {}, {}, false⟩, ⟨sub, {⟨"p", ["a"]⟩}, {⟨"p", ["a"]⟩, ⟨"q", ["a"]⟩}, true⟩]

example : PreConsistent voc hist {p} := by
  unfold PreConsistent
  refine ⟨by decide +kernel, ?_⟩
  simp only [hist, List.forall_mem_cons]
  refine ⟨by decide +kernel, by decide +kernel, by simp⟩

example : EffTrue voc hist {q} := by
  refine ⟨by decide +kernel, by decide +kernel, ?_, ?_⟩
  · simp only [hist, List.forall_mem_cons]
    exact ⟨by simp, fun _ => by decide +kernel, by simp⟩
  · simp only [hist, List.forall_mem_cons]
    refine ⟨by simp, fun _ => ?_, by simp⟩
    unfold InjectiveOn; decide +kernel

/-- Both verdicts and the exact effects come out. -/
example : (learned voc hist).safeModel = ({p, q.neg}, {q}) ∧ (learned voc hist).mustPre = [{p}] ∧
    (learned voc hist).inSafe {p, q.neg} = true ∧ (learned voc hist).inSafe {p, q} = false ∧
    (learned voc hist).notApplicable {p.neg, q} = true ∧ (learned voc hist).notApplicable {p, q} = false := by decide +kernel

end Props
