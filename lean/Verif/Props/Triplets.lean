import Verif.Model.Triplets
import Verif.Props.SamSafety
import Verif.Props.SamBehaviour
import Verif.Spec.Joint

/-! C101-C103: the training sets of the experiments. -/
namespace Props
namespace Triplets
open Model Model.Triplets Spec

theorem windows_range {α : Type} {n : Nat} (hn : 0 < n) (o : Obs α) : ∀ j k, o.comps.length / n ≤ k + j →
    windows n o ((List.range' k j).map (· * n)) =
      (List.range' k (o.comps.length / n - k)).map fun i => ⟨o.objects, (o.comps.drop (i * n)).take n⟩ := by
  intro j
  induction j with
  | zero =>
    intro k hk
    have : o.comps.length / n - k = 0 := by omega
    simp [this, windows]
  | succ j ih =>
    intro k hk
    have hlt : k < o.comps.length / n ↔ k * n + n ≤ o.comps.length := by
      rw [Nat.lt_iff_add_one_le, Nat.le_div_iff_mul_le hn, Nat.succ_mul]
    rw [List.range'_succ, List.map_cons]
    unfold windows
    dsimp only
    have hlen : ((o.comps.drop (k * n)).take n).length = min n (o.comps.length - k * n) := by simp
    by_cases hk' : k < o.comps.length / n
    · have h1 := hlt.mp hk'
      rw [if_neg (by rw [hlen]; omega), ih (k + 1) (by omega)]
      have : o.comps.length / n - k = (o.comps.length / n - (k + 1)) + 1 := by omega
      rw [this, List.range'_succ, List.map_cons]
    · have h1 : ¬ _ := fun h => hk' (hlt.mpr h)
      rw [if_pos (by rw [hlen]; omega)]
      have : o.comps.length / n - k = 0 := by omega
      simp [this]

theorem windows_starts {α : Type} {n : Nat} (hn : 0 < n) (o : Obs α) : windows n o (starts o.comps.length n) =
    (List.range (o.comps.length / n)).map fun i => ⟨o.objects, (o.comps.drop (i * n)).take n⟩ := by
  unfold starts
  rw [List.range_eq_range', windows_range hn, List.range_eq_range', Nat.sub_zero]
  rw [Nat.zero_add]
  exact Nat.div_le_div_right (by omega)

theorem flat_windows {α : Type} (cs : List α) (n : Nat) : ∀ m, m * n ≤ cs.length →
    ((List.range m).flatMap fun i => (cs.drop (i * n)).take n) = cs.take (m * n) := by
  intro m
  induction m with
  | zero => simp
  | succ m ih =>
    intro h
    rw [Nat.succ_mul] at h
    rw [List.range_succ, List.flatMap_append, ih (by omega), Nat.succ_mul, List.take_add]
    simp

/-- **C101.** Cutting observations into pieces of `n` transitions: every piece has exactly `n`
consecutive transitions of one observation and the objects of that observation; the pieces, in order,
are each observation's transitions without its last `length mod n` ones; there are `length / n`
pieces per observation. -/
theorem C101_pieces {α : Type} {n : Nat} (hn : 0 < n) (obs : List (Obs α)) :
    ∃ r, chunks n obs = .ok r ∧
      (∀ w ∈ r, w.comps.length = n ∧ ∃ o ∈ obs, w.objects = o.objects ∧ w.comps <:+: o.comps) ∧
      r.flatMap Obs.comps = obs.flatMap (fun o => o.comps.take (o.comps.length - o.comps.length % n)) ∧
      r.length = (obs.map fun o => o.comps.length / n).sum := by
  refine ⟨_, by unfold chunks; rw [if_neg (by omega)], ?_, ?_, ?_⟩
  · intro w hw
    obtain ⟨o, ho, hw⟩ := List.mem_flatMap.mp hw
    rw [windows_starts hn] at hw
    obtain ⟨i, hi, rfl⟩ := List.mem_map.mp hw
    have hi' := List.mem_range.mp hi
    have h1 : i * n + n ≤ o.comps.length := by
      rwa [Nat.lt_iff_add_one_le, Nat.le_div_iff_mul_le hn, Nat.succ_mul] at hi'
    refine ⟨by simp; omega, o, ho, rfl, ?_⟩
    exact (List.take_prefix _ _).isInfix.trans (List.drop_suffix _ _).isInfix
  · rw [List.flatMap_assoc]
    congr 1
    funext o
    rw [windows_starts hn, List.flatMap_map, flat_windows _ _ _ (Nat.div_mul_le_self _ _)]
    congr 1
    have := Nat.div_add_mod o.comps.length n
    rw [Nat.mul_comm] at this
    omega
  · rw [List.length_flatMap]
    congr 1
    apply List.map_congr_left
    intro o _
    rw [windows_starts hn]; simp

/-- **C101.** Size 0 raises (unless there is nothing to cut). -/
theorem C101_zero_raises {α : Type} (obs : List (Obs α)) : (∃ r, chunks 0 obs = .ok r) ↔ obs = [] := by
  unfold chunks
  by_cases h : obs = []
  · subst h; simp
  · simp [h]

/-- What the learner gets. -/
def given (os : List (Obs Component)) : List (List Component) := os.map Obs.comps

theorem given_flatten (os : List (Obs Component)) : (given os).flatten = os.flatMap Obs.comps := by
  unfold given; rw [List.flatMap_def]

/-- **C101.** Learning from the pieces is learning from the observations without their last
`length mod n` transitions: same model, same report, same exception. -/
theorem C101_same_model {n : Nat} (hn : 0 < n) (obs r : List (Obs Component)) (h : chunks n obs = .ok r) (L : Learner) :
    L.learn (given r) = L.learn (obs.map fun o => o.comps.take (o.comps.length - o.comps.length % n)) := by
  obtain ⟨r', h', _, hf, _⟩ := C101_pieces hn obs
  rw [h] at h'
  cases h'
  unfold Learner.learn
  rw [given_flatten, hf, List.flatMap_def]

theorem mem_pieces {n : Nat} {obs r : List (Obs Component)} (h : chunks n obs = .ok r) {c : Component}
    (hc : c ∈ (given r).flatten) : c ∈ (given obs).flatten := by
  rcases Nat.eq_zero_or_pos n with rfl | hn
  · have := (C101_zero_raises obs).mp ⟨r, h⟩
    subst this
    simp [chunks] at h
    subst h; simpa [given] using hc
  · obtain ⟨r', h', _, hf, _⟩ := C101_pieces hn obs
    rw [h] at h'
    cases h'
    rw [given_flatten, hf] at hc
    rw [given_flatten]
    obtain ⟨o, ho, hc⟩ := List.mem_flatMap.mp hc
    exact List.mem_flatMap.mpr ⟨o, ho, List.mem_of_mem_take hc⟩

theorem good_pieces {D : Domain} {truth : String → Schema} {n : Nat} {obs r : List (Obs Component)} (h : chunks n obs = .ok r)
    (hG : GoodData D truth (given obs)) (k : Nat) : GoodData D truth (given (r.take k)) := by
  have hm : ∀ c ∈ (given (r.take k)).flatten, c ∈ (given obs).flatten := by
    intro c hc
    apply mem_pieces h
    rw [given_flatten] at hc ⊢
    obtain ⟨o, ho, hc⟩ := List.mem_flatMap.mp hc
    exact List.mem_flatMap.mpr ⟨o, List.mem_of_mem_take ho, hc⟩
  exact ⟨fun c hc => hG.explained c (hm c hc), fun c hc => hG.noConst c (hm c hc)⟩

variable {D : Domain} {truth : String → Schema} {inj : Bool}

/-- **C101.** Every point of the learning curve over pieces is a safe model: the model learned from the
first `k` pieces of real trajectories accepts only states the true action accepts and predicts the
true successor. -/
theorem C101_curve_safe (hD : WFDomain D) (hT : WFTruth D truth) {n : Nat} {obs r : List (Obs Component)}
    (hr : chunks n obs = .ok r) (hG : GoodData D truth (given obs)) (k : Nat) {L' : Learner} {rep : List (String × Status)}
    (h : (Learner.init D .noRemove inj).learn (given (r.take k)) = .ok (L', rep)) {a : String} (ha : a ∈ D.names)
    (ρ : String → String) (hρ : Spec.Injective D.consts (D.act a).sig ρ) (s : State)
    (happ : applicable (L'.dom.act a).pre ρ s) :
    applicable (truth a).pre ρ s ∧ successor (L'.dom.act a).eff ρ s = successor (truth a).eff ρ s :=
  ⟨C01_preconditions_sufficient hD hT (good_pieces hr hG k) h ha ρ s happ,
    C02_effects_exact hD hT (good_pieces hr hG k) h ha ρ hρ s happ⟩

/-- **C101.** The curve grows: for an action seen in the first `k` pieces, the model of `k ≤ m` pieces
has fewer preconditions and more effects. -/
theorem C101_curve_monotone (hD : WFDomain D) (hc : D.consts = []) {p : Policy} (r : List (Obs Component)) {k m : Nat} (hkm : k ≤ m)
    {L₁ L₂ : Learner} {rep₁ rep₂ : List (String × Status)}
    (h₁ : (Learner.init D p inj).learn (given (r.take k)) = .ok (L₁, rep₁))
    (h₂ : (Learner.init D p inj).learn (given (r.take m)) = .ok (L₂, rep₂)) {a : String} (ha : a ∈ D.names)
    (ho : Observed (given (r.take k)) a) :
    (L₂.dom.act a).pre ⊆ (L₁.dom.act a).pre ∧ (L₁.dom.act a).eff ⊆ (L₂.dom.act a).eff := by
  have := C06_monotone hD hc (obs₁ := given (r.take k)) (obs₂ := given (r.take m)) (fun c hc => by
    rw [given_flatten] at hc ⊢
    obtain ⟨o, ho, hc⟩ := List.mem_flatMap.mp hc
    exact List.mem_flatMap.mpr ⟨o, List.take_subset_take_left _ hkm ho, hc⟩) h₁ h₂ ha ho
  exact ⟨this.1, this.2.1⟩

/-- The transitions of a joint observation in which exactly one agent acts, as single-agent ones. -/
def singles (cs : List JointComponent) : List Component :=
  cs.filterMap fun c => match c.calls with
    | [k] => some ⟨c.prev, k, c.next, true⟩
    | _ => none

/-- Several agents act. -/
def concurrent (c : JointComponent) : Bool := decide (1 < c.calls.length)

theorem baseline_snoc (cs : List JointComponent) (c : JointComponent) :
    baseline (cs ++ [c]) = (baseline cs).bind fun b => baselineStep b c := by
  unfold baseline
  rw [List.foldlM_append]
  simp only [Bind.bind, List.foldlM_cons, List.foldlM_nil]
  congr 1
  funext b
  cases baselineStep b c <;> rfl

theorem singles_snoc (cs : List JointComponent) (c : JointComponent) : singles (cs ++ [c]) = singles cs ++ singles [c] := by
  unfold singles; rw [List.filterMap_append]

theorem singles_nil_of_concurrent {cs : List JointComponent} (h : ∀ c ∈ cs, concurrent c = true) : singles cs = [] := by
  unfold singles
  rw [List.filterMap_eq_nil_iff]
  intro c hc
  have := h c hc
  unfold concurrent at this
  match hk : c.calls with
  | [] => rfl
  | [k] => rw [hk] at this; simp at this
  | _ :: _ :: _ => rfl

/-- **C102.** The baseline is defined exactly when in every transition some agent acts. -/
theorem C102_defined_iff (cs : List JointComponent) : (∃ b, baseline cs = .ok b) ↔ ∀ c ∈ cs, c.calls ≠ [] := by
  induction cs using List.reverseRecOn with
  | nil => simp [baseline, pure, Except.pure]
  | append_singleton cs c ih =>
    rw [baseline_snoc]
    constructor
    · rintro ⟨b, hb⟩
      cases hc : baseline cs with
      | error e => rw [hc] at hb; simp [Except.bind] at hb
      | ok b0 =>
        rw [hc] at hb
        have h1 := ih.mp ⟨b0, hc⟩
        intro d hd
        rcases List.mem_append.mp hd with hd | hd
        · exact h1 d hd
        · rw [List.mem_singleton] at hd
          subst hd
          intro he
          simp [Except.bind, baselineStep, he] at hb
    · intro h
      obtain ⟨b0, h0⟩ := ih.mpr fun d hd => h d (List.mem_append_left _ hd)
      have hc := h c (by simp)
      rw [h0]
      simp only [Except.bind, baselineStep]
      split_ifs
      · exact ⟨_, rfl⟩
      · match hk : c.calls with
        | [] => exact absurd hk hc
        | k :: _ => exact ⟨_, rfl⟩

/-- **C102.** What the baseline contains: leading transitions with several acting agents are dropped;
after them there is one entry per transition, namely the most recent transition in which exactly one
agent acted. The two counters count the transitions with one and with several acting agents. -/
theorem C102_exact {cs : List JointComponent} {b : Baseline} (h : baseline cs = .ok b) :
    b.trivial = cs.countP (fun c => decide (c.calls.length = 1)) ∧ b.nonTrivial = cs.countP concurrent ∧
    b.trivial + b.nonTrivial = cs.length ∧
    b.comps.length = (cs.dropWhile concurrent).length ∧
    ∀ i : Nat, i < (cs.dropWhile concurrent).length →
      b.comps[i]? = (singles ((cs.dropWhile concurrent).take (i + 1))).getLast? := by
  induction cs using List.reverseRecOn generalizing b with
  | nil =>
    have : b = ⟨[], 0, 0⟩ := by simpa [baseline, pure, Except.pure] using h.symm
    subst this; simp
  | append_singleton cs c ih =>
    rw [baseline_snoc] at h
    cases hc : baseline cs with
    | error e => rw [hc] at h; simp [Except.bind] at h
    | ok b0 =>
      rw [hc] at h
      simp only [Except.bind] at h
      obtain ⟨h1, h2, h3, h4, h5⟩ := ih hc
      have hdw : (cs ++ [c]).dropWhile concurrent =
          if (cs.dropWhile concurrent) = [] then (if concurrent c then [] else [c]) else cs.dropWhile concurrent ++ [c] := by
        rw [List.dropWhile_append]
        by_cases hd : cs.dropWhile concurrent = []
        · simp [hd, List.dropWhile_cons]
        · simp [hd]
      unfold baselineStep at h
      by_cases hj : 1 < c.calls.length
      · have hcc : concurrent c = true := by unfold concurrent; simp [hj]
        rw [if_pos hj] at h
        have hb := (Except.ok.inj h).symm
        have hs1 : singles [c] = [] := singles_nil_of_concurrent (by simp [hcc])
        by_cases hd : cs.dropWhile concurrent = []
        · have he : b0.comps = [] := by rw [← List.length_eq_zero_iff, h4, hd]; rfl
          rw [hdw, if_pos hd, if_pos hcc]
          subst hb
          simp only [he, List.getLast?_nil]
          refine ⟨?_, ?_, ?_, rfl, by simp⟩
          · rw [List.countP_append, h1]; simp; omega
          · rw [List.countP_append, h2]; simp [hcc]
          · simp; omega
        · have hne : b0.comps ≠ [] := by
            intro he; rw [he] at h4; exact hd (List.length_eq_zero_iff.mp h4.symm)
          have hlast : b0.comps.getLast? = (singles (cs.dropWhile concurrent)).getLast? := by
            rw [List.getLast?_eq_getElem?, h4]
            have hpos : 0 < (cs.dropWhile concurrent).length := List.length_pos_iff.mpr hd
            rw [h5 _ (by omega)]
            congr 2
            rw [Nat.sub_add_cancel hpos, List.take_length]
          obtain ⟨last, hl⟩ : ∃ x, b0.comps.getLast? = some x := ⟨_, List.getLast?_eq_some_getLast hne⟩
          rw [hdw, if_neg hd]
          subst hb
          simp only [hl]
          refine ⟨?_, ?_, ?_, ?_, ?_⟩
          · rw [List.countP_append, h1]; simp; omega
          · rw [List.countP_append, h2]; simp [hcc]
          · simp; omega
          · simp [h4]
          · intro i hi
            rw [List.length_append, List.length_singleton] at hi
            by_cases hi' : i < (cs.dropWhile concurrent).length
            · rw [List.getElem?_append_left (by omega), h5 i hi', List.take_append_of_le_length (by omega)]
            · have : i = b0.comps.length := by omega
              subst this
              rw [List.getElem?_append_right (le_refl _), h4]
              rw [List.take_of_length_le (by simp), singles_snoc, hs1, List.append_nil, ← hlast, hl]
              simp
      · have hcc : concurrent c = false := by unfold concurrent; simpa using hj
        rw [if_neg hj] at h
        match hk : c.calls with
        | [] => rw [hk] at h; simp at h
        | k :: l2 :: rest => rw [hk] at hj; simp at hj
        | [k] =>
          rw [hk] at h
          simp only at h
          have hb := (Except.ok.inj h).symm
          have hs1 : singles [c] = [⟨c.prev, k, c.next, true⟩] := by simp [singles, hk]
          have hdw' : (cs ++ [c]).dropWhile concurrent = cs.dropWhile concurrent ++ [c] := by
            rw [hdw]; by_cases hd : cs.dropWhile concurrent = []
            · simp [hd, hcc]
            · simp [hd]
          rw [hdw']
          subst hb
          simp only
          refine ⟨?_, ?_, ?_, ?_, ?_⟩
          · rw [List.countP_append, h1]; simp [hk]
          · rw [List.countP_append, h2]; simp [hcc]
          · simp; omega
          · simp [h4]
          · intro i hi
            rw [List.length_append, List.length_singleton] at hi
            by_cases hi' : i < (cs.dropWhile concurrent).length
            · rw [List.getElem?_append_left (by omega), h5 i hi', List.take_append_of_le_length (by omega)]
            · have : i = b0.comps.length := by omega
              subst this
              rw [List.getElem?_append_right (le_refl _), h4]
              rw [List.take_of_length_le (by simp), singles_snoc, hs1]
              simp

/-- **C102.** The baseline contains exactly the transitions in which one agent acts. -/
theorem C102_members {cs : List JointComponent} {b : Baseline} (h : baseline cs = .ok b) (x : Component) :
    x ∈ b.comps ↔ x ∈ singles cs := by
  induction cs using List.reverseRecOn generalizing b with
  | nil =>
    have : b = ⟨[], 0, 0⟩ := by simpa [baseline, pure, Except.pure] using h.symm
    subst this; simp [singles]
  | append_singleton cs c ih =>
    rw [baseline_snoc] at h
    cases hc : baseline cs with
    | error e => rw [hc] at h; simp [Except.bind] at h
    | ok b0 =>
      rw [hc] at h
      simp only [Except.bind] at h
      have ih := ih hc
      unfold baselineStep at h
      rw [singles_snoc]
      by_cases hj : 1 < c.calls.length
      · rw [if_pos hj] at h
        have hb := (Except.ok.inj h).symm
        rw [singles_nil_of_concurrent (cs := [c]) (by simp [concurrent, hj]), List.append_nil, ← ih, hb]
        cases hl : b0.comps.getLast? with
        | none => rfl
        | some last =>
          have := List.mem_of_getLast? hl
          simp only [List.mem_append, List.mem_singleton]
          constructor
          · rintro (h | rfl)
            · exact h
            · exact this
          · exact Or.inl
      · rw [if_neg hj] at h
        match hk : c.calls with
        | [] => rw [hk] at h; simp at h
        | k :: l2 :: rest => rw [hk] at hj; simp at hj
        | [k] =>
          rw [hk] at h
          simp only at h
          have hb := (Except.ok.inj h).symm
          rw [hb, List.mem_append, List.mem_append, ih]
          simp [singles, hk]

theorem baselineAll_mem {obs : List (List JointComponent)} {r : List (List Component)} (h : baselineAll obs = .ok r) (x : Component) :
    x ∈ r.flatten ↔ x ∈ (obs.map singles).flatten := by
  induction obs generalizing r with
  | nil => simp [baselineAll, pure, Except.pure] at h; subst h; simp
  | cons o obs ih =>
    unfold baselineAll at h
    rw [List.mapM_cons] at h
    simp only [Bind.bind, Except.bind] at h
    cases ho : baseline o with
    | error e => rw [ho] at h; simp at h
    | ok b =>
      rw [ho] at h
      simp only at h
      cases hr : baselineAll obs with
      | error e => unfold baselineAll at hr; simp only [Bind.bind, Except.bind] at hr; rw [hr] at h; simp at h
      | ok r' =>
        have hr' := hr
        unfold baselineAll at hr; simp only [Bind.bind, Except.bind] at hr
        rw [hr] at h
        simp only [pure, Except.pure] at h
        cases h
        rw [List.flatten_cons, List.map_cons, List.flatten_cons, List.mem_append, List.mem_append, ih hr', C102_members ho]

/-- **C102.** The copies do not matter: for SAM without constants, learning from the baseline is
learning from the transitions in which one agent acts. -/
theorem C102_same_model (hD : WFDomain D) (hc : D.consts = []) {p : Policy} {obs : List (List JointComponent)} {r : List (List Component)}
    (hr : baselineAll obs = .ok r) {L₁ : Learner} {rep₁ : List (String × Status)} (h₁ : (Learner.init D p inj).learn r = .ok (L₁, rep₁)) :
    ∃ L₂ rep₂, (Learner.init D p inj).learn (obs.map singles) = .ok (L₂, rep₂) ∧
      (∀ a ∈ D.names, L₁.dom.act a = L₂.dom.act a) ∧ ∀ e, e ∈ rep₁ ↔ e ∈ rep₂ := by
  have hs : ∀ c : Component, c.success = true → (c ∈ r.flatten ↔ c ∈ (obs.map singles).flatten) := fun c _ => baselineAll_mem hr c
  obtain ⟨⟨L₂, rep₂⟩, h₂⟩ := (C05_success_irrelevant hD hs).mp ⟨_, h₁⟩
  exact ⟨L₂, rep₂, h₂, C05_order_irrelevant hD hc hs h₁ h₂⟩

theorem explained_of_single {c : JointComponent} {k : Call} (hk : c.calls = [k]) (h : JointExplained truth c) :
    Explained truth ⟨c.prev, k, c.next, true⟩ := by
  have hmem : k ∈ c.calls := by rw [hk]; simp
  refine ⟨h.arity k hmem, h.app k hmem, ?_⟩
  have heff := h.effects k hmem
  have hframe : ∀ g : Lit, holds c.next g → ¬ holds c.prev g → ∃ e ∈ (truth k.name).eff, ground (callSubst truth k) e = g := by
    intro g h1 h2
    obtain ⟨k', hk', e, he, hg⟩ := h.frame g h1 h2
    rw [hk, List.mem_singleton] at hk'
    subst hk'
    exact ⟨e, he, hg⟩
  have hsub : substOf truth ⟨c.prev, k, c.next, true⟩ = callSubst truth k := rfl
  rw [hsub]
  ext x
  unfold successor
  rw [Finset.mem_union, Finset.mem_sdiff, Finset.mem_image, Finset.mem_image]
  constructor
  · intro hx
    by_cases hp : x ∈ c.prev
    · left
      refine ⟨hp, ?_⟩
      rintro ⟨e, he, rfl⟩
      rw [Finset.mem_filter] at he
      have := heff e he.1
      unfold holds at this
      have h2 : (ground (callSubst truth k) e).pos = false := he.2
      rw [h2] at this
      simp at this
      exact this hx
    · right
      obtain ⟨e, he, hg⟩ := hframe ⟨x.name, x.args, true⟩ (by unfold holds; simpa [Lit.atom] using hx) (by unfold holds; simpa [Lit.atom] using hp)
      refine ⟨e, Finset.mem_filter.mpr ⟨he, ?_⟩, ?_⟩
      · have := congrArg Lit.pos hg; simpa [ground] using this
      · rw [hg]; rfl
  · rintro (⟨hp, hnd⟩ | ⟨e, he, rfl⟩)
    · by_contra hx
      obtain ⟨e, he, hg⟩ := hframe ⟨x.name, x.args, false⟩ (by unfold holds; simpa [Lit.atom] using hx) (by unfold holds; simpa [Lit.atom] using hp)
      refine hnd ⟨e, Finset.mem_filter.mpr ⟨he, ?_⟩, ?_⟩
      · have := congrArg Lit.pos hg; simpa [ground] using this
      · rw [hg]; rfl
    · rw [Finset.mem_filter] at he
      have := heff e he.1
      unfold holds at this
      exact this.mp he.2

/-- **C102.** The single-agent baseline is safe: if the joint transitions in which one agent acts are
real, SAM's model of the baseline accepts only states the true action accepts and predicts the true
successor. Nothing is asked of the transitions in which several agents act. -/
theorem C102_safe (hD : WFDomain D) (hT : WFTruth D truth) {obs : List (List JointComponent)} {r : List (List Component)}
    (hr : baselineAll obs = .ok r)
    (hreal : ∀ c ∈ obs.flatten, ∀ k, c.calls = [k] → JointExplained truth c ∧ (k.params.Nodup → ∀ o ∈ k.params, o ∉ Sig.names D.consts))
    {L' : Learner} {rep : List (String × Status)} (h : (Learner.init D .noRemove inj).learn r = .ok (L', rep))
    {a : String} (ha : a ∈ D.names) (ρ : String → String) (hρ : Spec.Injective D.consts (D.act a).sig ρ) (s : State)
    (happ : applicable (L'.dom.act a).pre ρ s) :
    applicable (truth a).pre ρ s ∧ successor (L'.dom.act a).eff ρ s = successor (truth a).eff ρ s := by
  have key : ∀ x ∈ r.flatten, ∃ c ∈ obs.flatten, ∃ k, c.calls = [k] ∧ x = ⟨c.prev, k, c.next, true⟩ := by
    intro x hx
    rw [baselineAll_mem hr, ← List.flatMap_def] at hx
    obtain ⟨o, ho, hx⟩ := List.mem_flatMap.mp hx
    obtain ⟨c, hc, hx⟩ := List.mem_filterMap.mp hx
    refine ⟨c, List.mem_flatten.mpr ⟨o, ho, hc⟩, ?_⟩
    match hk : c.calls with
    | [] => rw [hk] at hx; simp at hx
    | k :: _ :: _ => rw [hk] at hx; simp at hx
    | [k] => rw [hk] at hx; simp at hx; exact ⟨k, rfl, hx.symm⟩
  have hG : GoodData D truth r := by
    constructor
    · intro x hx _
      obtain ⟨c, hc, k, hk, rfl⟩ := key x hx
      exact explained_of_single hk (hreal c hc k hk).1
    · intro x hx _ hnd
      obtain ⟨c, hc, k, hk, rfl⟩ := key x hx
      exact (hreal c hc k hk).2 hnd
  exact ⟨C01_preconditions_sufficient hD hT hG h ha ρ s happ, C02_effects_exact hD hT hG h ha ρ hρ s happ⟩

/-- **C102, a limit.** The dataset statistics raise exactly when no transition has several acting agents. -/
theorem C102_ratio_raises {css : List (List JointComponent)} {bs : List Baseline} (h : css.mapM baseline = .ok bs) :
    (∃ e, datasetRatio bs = .error e) ↔ ∀ cs ∈ css, ∀ c ∈ cs, concurrent c = false := by
  have hsum : (bs.map Baseline.nonTrivial).sum = (css.map fun cs => cs.countP concurrent).sum := by
    induction css generalizing bs with
    | nil => simp [pure, Except.pure] at h; subst h; rfl
    | cons cs css ih =>
      rw [List.mapM_cons] at h
      simp only [Bind.bind, Except.bind] at h
      cases hb : baseline cs with
      | error e => rw [hb] at h; simp at h
      | ok b =>
        rw [hb] at h
        simp only at h
        cases hr : css.mapM baseline with
        | error e => rw [hr] at h; simp at h
        | ok r =>
          rw [hr] at h
          simp only [pure, Except.pure] at h
          cases h
          rw [List.map_cons, List.map_cons, List.sum_cons, List.sum_cons, ih hr, (C102_exact hb).2.1]
  unfold datasetRatio
  dsimp only
  rw [hsum]
  have h0 : (css.map fun cs => cs.countP concurrent).sum = 0 ↔ ∀ cs ∈ css, ∀ c ∈ cs, concurrent c = false := by
    clear hsum h
    induction css with
    | nil => simp
    | cons cs css ih =>
      rw [List.map_cons, List.sum_cons, Nat.add_eq_zero_iff, ih, List.forall_mem_cons]
      simp
  by_cases hz : (css.map fun cs => cs.countP concurrent).sum = 0
  · rw [if_pos hz]; exact ⟨fun _ => h0.mp hz, fun _ => ⟨_, rfl⟩⟩
  · rw [if_neg hz]
    constructor
    · rintro ⟨e, he⟩; cases he
    · intro k; exact absurd (h0.mpr k) hz

theorem mem_rangeStep {a b step : Nat} (hs : 0 < step) (x : Nat) :
    x ∈ rangeStep a b step ↔ a ≤ x ∧ x < b ∧ step ∣ x - a := by
  unfold rangeStep
  rw [List.mem_map]
  constructor
  · rintro ⟨i, hi, rfl⟩
    rw [List.mem_range, Nat.lt_div_iff_mul_lt hs] at hi
    have : i * step = step * i := Nat.mul_comm _ _
    refine ⟨by omega, by omega, ?_⟩
    rw [Nat.add_sub_cancel_left, this]
    exact ⟨i, rfl⟩
  · rintro ⟨h1, h2, i, hi⟩
    refine ⟨i, ?_, by rw [Nat.mul_comm]; omega⟩
    rw [List.mem_range, Nat.lt_div_iff_mul_lt hs]
    have : i * step = step * i := Nat.mul_comm _ _
    omega

theorem rangeStep_sorted {a b step : Nat} (hs : 0 < step) : (rangeStep a b step).Pairwise (· < ·) := by
  unfold rangeStep
  rw [List.pairwise_map]
  exact List.Pairwise.imp (fun h => by have := Nat.mul_lt_mul_of_pos_right h hs; omega) (List.pairwise_lt_range)

/-- `n` training trajectories are available: 80% of the size of the experiment, or the largest index. -/
def available : Size → Nat → Prop
  | .experiment s, n => 5 * n ≤ 4 * s
  | .maxIndex i, n => n ≤ i

theorem available_iff (size : Size) (n : Nat) : available size n ↔ n < maxTrain size := by
  cases size <;> unfold available maxTrain <;> dsimp only <;> omega

/-- **C103.** The list of iterations: strictly increasing, starting with 1; its numbers from 10 on are,
for a hop other than 100, the numbers `10 + i·hop` up to the bound, and for hop 100 the tens below 100
and the hundreds up to the bound. Below 10: all of them, or only 1. -/
theorem C103_exact (size : Size) {hop : Nat} (hh : 0 < hop) :
    ∃ l, iterations size hop = .ok l ∧ l.Pairwise (· < ·) ∧ l.head? = some 1 ∧
      (hop ≠ 100 → ∀ n, n ∈ l ↔ (1 ≤ n ∧ n < 10) ∨ (10 ≤ n ∧ available size n ∧ hop ∣ n - 10)) ∧
      (hop = 100 → ∀ n, n ∈ l ↔ n = 1 ∨ (10 ≤ n ∧ n < 100 ∧ 10 ∣ n) ∨ (100 ≤ n ∧ available size n ∧ 100 ∣ n)) := by
  simp only [available_iff]
  unfold iterations
  by_cases h : hop = 100
  · rw [if_pos h]
    refine ⟨_, rfl, ?_, rfl, fun k => absurd h k, fun _ n => ?_⟩
    · rw [List.append_assoc, List.pairwise_append, List.pairwise_append]
      refine ⟨List.pairwise_singleton _ _, ⟨rangeStep_sorted (by omega), rangeStep_sorted (by omega), ?_⟩, ?_⟩
      · intro x hx y hy
        rw [mem_rangeStep (by omega)] at hx hy
        omega
      · intro x hx y hy
        rw [List.mem_singleton] at hx
        rw [List.mem_append, mem_rangeStep (by omega), mem_rangeStep (by omega)] at hy
        omega
    · rw [List.append_assoc, List.mem_append, List.mem_append, mem_rangeStep (by omega), mem_rangeStep (by omega), List.mem_singleton]
      omega
  · rw [if_neg h, if_neg (by omega)]
    refine ⟨_, rfl, ?_, rfl, fun _ n => ?_, fun k => absurd k h⟩
    · rw [List.pairwise_append]
      refine ⟨rangeStep_sorted (by omega), rangeStep_sorted hh, ?_⟩
      intro x hx y hy
      rw [mem_rangeStep (by omega)] at hx
      rw [mem_rangeStep hh] at hy
      omega
    · rw [List.mem_append, mem_rangeStep (by omega), mem_rangeStep hh]
      simp only [Nat.one_dvd, and_true]

/-- **C103, when the iterations fit.** `train` is the number of training trajectories the bound stands
for. Every iteration is at most `train` exactly when `train` is at least 9, or, for hop 100, 90. -/
theorem C103_fits_iff (size : Size) {hop : Nat} (hh : 0 < hop) {l : List Nat} (h : iterations size hop = .ok l) :
    (∀ n ∈ l, available size n) ↔ available size (if hop = 100 then 90 else 9) := by
  simp only [available_iff]
  obtain ⟨l', h', _, _, h1, h2⟩ := C103_exact size hh
  simp only [available_iff] at h1 h2
  rw [h] at h'
  cases h'
  by_cases hc : hop = 100
  · rw [if_pos hc]
    constructor
    · intro k; exact k 90 ((h2 hc 90).mpr (by omega))
    · intro k n hn
      rcases (h2 hc n).mp hn with h | h | h <;> omega
  · rw [if_neg hc]
    constructor
    · intro k; exact k 9 ((h1 hc 9).mpr (by omega))
    · intro k n hn
      rcases (h1 hc n).mp hn with h | h <;> omega

/-- **C103.** Hop 0 raises. -/
theorem C103_zero_raises (size : Size) : iterations size 0 = .error .valueError := by
  unfold iterations; simp

/-- **C103.** The rounds of the experiment over pieces: round `i` (from 1) learns from the first `i`
pieces; rounds beyond the number of pieces repeat the last training set. -/
theorem C103_rounds {α : Type} (obs : List α) (n : Nat) :
    (rounds obs n).length = n - 1 ∧
    (∀ i : Nat, i < n - 1 → (rounds obs n)[i]? = some (obs.take (i + 1))) ∧
    ∀ i : Nat, i < n - 1 → obs.length ≤ i + 1 → (rounds obs n)[i]? = some obs := by
  have hlen : (rounds obs n).length = n - 1 := by unfold rounds rangeStep; simp
  have hget : ∀ i : Nat, i < n - 1 → (rounds obs n)[i]? = some (obs.take (i + 1)) := by
    intro i hi
    unfold rounds rangeStep
    rw [List.map_map, List.getElem?_map, List.getElem?_range (by simpa using hi)]
    simp [Nat.add_comm]
  exact ⟨hlen, hget, fun i hi h => by rw [hget i hi, List.take_of_length_le h]⟩

end Triplets
end Props
