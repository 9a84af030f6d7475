import Verif.Props.Agent

/-! C72, C73: the exploration loops. -/
namespace Props
open Model Spec

variable {S A : Type} {E : Env S A} {F bound : Nat} {order : List (Try S A × Bool) → List A → List A} {dup : A → Bool} {grounded : List A}

theorem mem_injective {a : A} : a ∈ injectiveActions dup grounded ↔ a ∈ grounded ∧ dup a = false := by
  unfold injectiveActions
  rw [List.mem_filter]
  simp

/-- **C72.** An exploration episode of the semi-online learner, for every environment and all random orders: the recorded attempts
form a path of the environment from the initial to the last state, only environment actions without repeated objects are tried, no
attempt is integrated in the models, at most the given number of attempts succeed, and the failure counter grows by the number
of failures, which is bounded. -/
theorem C72_semi_episode (ho : OrderOK order) (s : S) (L : Explorer S A) :
    ∃ new, (semiExplore E F bound order dup grounded s L).learner.log = L.log ++ new ∧
      Path E s (new.map Prod.fst) (semiExplore E F bound order dup grounded s L).state ∧
      (∀ t ∈ new, t.1.act ∈ grounded ∧ dup t.1.act = false ∧ t.2 = false) ∧
      okCount (new.map Prod.fst) ≤ bound ∧
      (semiExplore E F bound order dup grounded s L).learner.failures = L.failures + failCount (new.map Prod.fst) ∧
      (semiExplore E F bound order dup grounded s L).learner.failures ≤ max L.failures (F + grounded.length - 1) := by
  obtain ⟨new, h, hf, hb, _⟩ := semiLoop_spec (E := E) (F := F) (bound := bound) ho (injectiveActions dup grounded) bound 0 s L
  refine ⟨new, h.log, h.path, fun t ht => ?_, h.okc, h.fails, Nat.le_trans hb ?_⟩
  · obtain ⟨h1, h2⟩ := mem_injective.mp (h.mem t ht)
    exact ⟨h1, h2, hf t ht⟩
  · have : (injectiveActions dup grounded).length ≤ grounded.length := List.length_filter_le _ _
    omega

/-- **C72.** The verdict of the episode: `reached` means that the last state is a goal state; otherwise no success led to a goal state,
the reported number of steps is the bound, and the episode ended because the bound was met, too many attempts had failed, or no
action was applicable any more. -/
theorem C72_semi_verdict (ho : OrderOK order) (s : S) (L : Explorer S A) {new : List (Try S A × Bool)}
    (hnew : (semiExplore E F bound order dup grounded s L).learner.log = L.log ++ new) :
    ((semiExplore E F bound order dup grounded s L).reached = true →
      E.goal (semiExplore E F bound order dup grounded s L).state = true ∧
      okCount (new.map Prod.fst) ≤ (semiExplore E F bound order dup grounded s L).steps ∧
      (semiExplore E F bound order dup grounded s L).steps ≤ bound) ∧
    ((semiExplore E F bound order dup grounded s L).reached = false →
      (semiExplore E F bound order dup grounded s L).steps = bound ∧ (∀ t ∈ new, t.1.ok = true → E.goal t.1.after = false) ∧
      (okCount (new.map Prod.fst) = bound ∨ F ≤ (semiExplore E F bound order dup grounded s L).learner.failures ∨
        ∀ a ∈ grounded, dup a = false → E.step (semiExplore E F bound order dup grounded s L).state a = none)) := by
  obtain ⟨new', h, hf, hb, _, hs⟩ := semiLoop_spec (E := E) (F := F) (bound := bound) ho (injectiveActions dup grounded) bound 0 s L
  have e : new' = new := List.append_cancel_left (h.log.symm.trans hnew)
  subst e
  refine ⟨fun hr => ⟨h.yes hr, ?_⟩, fun hr => ?_⟩
  · obtain ⟨h1, h2⟩ := hs hr
    exact ⟨by rw [Nat.zero_add] at h1; exact h1, by rw [Nat.zero_add] at h2; exact h2⟩
  · obtain ⟨h1, h2, h3⟩ := h.no hr
    refine ⟨h1, h2, ?_⟩
    rcases h3 with h3 | h3 | h3
    · exact .inl h3
    · exact .inr (.inl h3)
    · exact .inr (.inr fun a ha hd => h3 a (mem_injective.mpr ⟨ha, hd⟩))

/-- **C72**, limit: the failure counter is never reset between the episodes of the semi-online learner; once it has met its bound
every later episode does nothing and still reports the full number of steps. -/
theorem C72_limit_counter_not_reset (s : S) (L : Explorer S A) (h : F ≤ L.failures) :
    semiExplore E F bound order dup grounded s L = ⟨false, bound, s, L⟩ := by
  unfold semiExplore
  cases bound with
  | zero => rfl
  | succ n =>
    rw [semiLoop]
    cases order L.log (injectiveActions dup grounded) with
    | nil => rfl
    | cons a f => exact if_pos h

/-! ### NOAM -/

section noam
variable {name : A → String} {select : Explorer S A → S → A → List A → A × List A}

/-- **C73.** An exploration episode of the NOAM learners, for every environment, all random orders and every way of selecting actions
from the frontier: the recorded attempts form a path of the environment, only environment actions without repeated objects are
tried, at most the given number of attempts succeed, and the failures of the episode are bounded. -/
theorem C73_noam_episode (ho : OrderOK order) (hsel : SelOK select) (s : S) (L : Explorer S A) :
    ∃ new, (noamExplore E F bound order name select dup grounded s L).learner.log = L.log ++ new ∧
      Path E s (new.map Prod.fst) (noamExplore E F bound order name select dup grounded s L).state ∧
      (∀ t ∈ new, t.1.act ∈ grounded ∧ dup t.1.act = false) ∧
      okCount (new.map Prod.fst) ≤ bound ∧
      (noamExplore E F bound order name select dup grounded s L).learner.failures = failCount (new.map Prod.fst) ∧
      failCount (new.map Prod.fst) ≤ F + 2 * grounded.length - 1 := by
  obtain ⟨new, h, hb, _⟩ := noamLoop_spec (E := E) (F := F) (bound := bound) ho (name := name) hsel (injectiveActions dup grounded) bound 0 s
    { L with failures := 0 }
  have hf := h.fails
  refine ⟨new, h.log, h.path, fun t ht => mem_injective.mp (h.mem t ht), h.okc, ?_, ?_⟩
  · change _ = 0 + _ at hf; rw [Nat.zero_add] at hf; exact hf
  · have : (injectiveActions dup grounded).length ≤ grounded.length := List.length_filter_le _ _
    change _ = 0 + _ at hf; rw [Nat.zero_add] at hf; rw [hf] at hb
    refine Nat.le_trans hb ?_
    change max 0 _ ≤ _
    omega

/-- **C73.** The verdict is exact: `reached` means that the last attempt succeeded and led to a goal state for the first time, and the
number of steps is the number of successes; otherwise no success led to a goal state and the episode ended because the bound was
met, too many attempts had failed, or no action is applicable in the last state. -/
theorem C73_noam_verdict (ho : OrderOK order) (hsel : SelOK select) (s : S) (L : Explorer S A) {new : List (Try S A × Bool)}
    (hnew : (noamExplore E F bound order name select dup grounded s L).learner.log = L.log ++ new) :
    ((noamExplore E F bound order name select dup grounded s L).reached = true →
      E.goal (noamExplore E F bound order name select dup grounded s L).state = true ∧
      (noamExplore E F bound order name select dup grounded s L).steps = okCount (new.map Prod.fst) ∧
      ∃ init t, new = init ++ [t] ∧ t.1.ok = true ∧ ∀ u ∈ init, u.1.ok = true → E.goal u.1.after = false) ∧
    ((noamExplore E F bound order name select dup grounded s L).reached = false →
      (noamExplore E F bound order name select dup grounded s L).steps = bound ∧ (∀ t ∈ new, t.1.ok = true → E.goal t.1.after = false) ∧
      (okCount (new.map Prod.fst) = bound ∨ F ≤ failCount (new.map Prod.fst) ∨
        ∀ a ∈ grounded, dup a = false → E.step (noamExplore E F bound order name select dup grounded s L).state a = none)) := by
  obtain ⟨new', h, hb, hy⟩ := noamLoop_spec (E := E) (F := F) (bound := bound) ho (name := name) hsel (injectiveActions dup grounded) bound 0 s
    { L with failures := 0 }
  have e : new' = new := List.append_cancel_left (h.log.symm.trans hnew)
  subst e
  have hf := h.fails
  change _ = 0 + _ at hf; rw [Nat.zero_add] at hf
  refine ⟨fun hr => ?_, fun hr => ?_⟩
  · obtain ⟨h1, h2⟩ := hy hr
    rw [Nat.zero_add] at h1
    exact ⟨h.yes hr, h1, h2⟩
  · obtain ⟨h1, h2, h3⟩ := h.no hr
    refine ⟨h1, h2, ?_⟩
    rcases h3 with h3 | h3 | h3
    · exact .inl h3
    · rw [hf] at h3; exact .inr (.inl h3)
    · exact .inr (.inr fun a ha hd => h3 a (mem_injective.mpr ⟨ha, hd⟩))

/-- C72, C73: so every exploration tells the truth, as `C75_drivers_truthful` needs. -/
theorem C73_explorations_truthful (ho : OrderOK order) (hsel : SelOK select) (learner : List (Try S A) → Explorer S A) :
    ExploreOK E (fun ts s => noamExplore E F bound order name select dup grounded s (learner ts)) ∧
    ExploreOK E (fun ts s => semiExplore E F bound order dup grounded s (learner ts)) := by
  constructor
  · intro ts s hr
    obtain ⟨new, h1, h2, _⟩ := C73_noam_episode (E := E) (F := F) (bound := bound) (dup := dup) (grounded := grounded) (name := name) ho hsel s (learner ts)
    exact ⟨_, _, h2, ((C73_noam_verdict ho hsel s (learner ts) h1).1 hr).1⟩
  · intro ts s hr
    obtain ⟨new, h1, h2, _⟩ := C72_semi_episode (E := E) (F := F) (bound := bound) (dup := dup) (grounded := grounded) ho s (learner ts)
    exact ⟨_, _, h2, ((C72_semi_verdict ho s (learner ts) h1).1 hr).1⟩

/-! ### The selections -/

theorem skip_spec (informative : A → Bool) (a : A) (f : List A) :
    ∃ pre, a :: f = pre ++ (skipUninformative informative a f).1 :: (skipUninformative informative a f).2 ∧
      (∀ b ∈ pre, informative b = false) ∧
      ((skipUninformative informative a f).2 ≠ [] → informative (skipUninformative informative a f).1 = true) := by
  induction f generalizing a with
  | nil => exact ⟨[], rfl, by simp, by simp [skipUninformative]⟩
  | cons b f ih =>
    rw [skipUninformative]
    by_cases h : informative a = true
    · rw [if_pos h]; exact ⟨[], rfl, by simp, fun _ => h⟩
    · rw [if_neg h]
      obtain ⟨pre, e, h1, h2⟩ := ih b
      refine ⟨a :: pre, by rw [List.cons_append, ← e], ?_, h2⟩
      intro x hx
      rcases List.mem_cons.mp hx with rfl | hx
      · simpa using h
      · exact h1 x hx

variable [DecidableEq A] {W : Nat} {pick : List (Try S A × Bool) → List A → A} {informative : List (Try S A × Bool) → S → A → Bool}

/-- `random.choice` returns an element. -/
def PickOK (pick : List (Try S A × Bool) → List A → A) : Prop := ∀ h l, l ≠ [] → pick h l ∈ l

/-- **C73.** The selection of NOAM: if some action name of the frontier is starved, an action of a starved name is taken out of the
frontier; otherwise the first informative action, or the last one when none is, and only uninformative actions are passed over. -/
theorem C73_selection (hp : PickOK pick) (L : Explorer S A) (s : S) (a : A) (f : List A) :
    ((∃ b ∈ a :: f, starved W L (name b) = true) →
      (noamSelect W name pick informative L s a f).1 ∈ a :: f ∧
      starved W L (name (noamSelect W name pick informative L s a f).1) = true ∧
      (noamSelect W name pick informative L s a f).2 = (a :: f).erase (noamSelect W name pick informative L s a f).1) ∧
    ((∀ b ∈ a :: f, starved W L (name b) = false) → ∃ skipped,
      a :: f = skipped ++ (noamSelect W name pick informative L s a f).1 :: (noamSelect W name pick informative L s a f).2 ∧
      (∀ b ∈ skipped, informative L.log s b = false) ∧
      ((noamSelect W name pick informative L s a f).2 ≠ [] → informative L.log s (noamSelect W name pick informative L s a f).1 = true)) := by
  constructor
  · rintro ⟨b, hb, hst⟩
    unfold noamSelect
    cases hfd : (a :: f).find? (fun b => starved W L (name b)) with
    | none => rw [List.find?_eq_none] at hfd; exact absurd hst (hfd b hb)
    | some c =>
      dsimp only
      have hc := List.find?_some hfd
      have hcm := List.mem_of_find?_eq_some hfd
      have := hp L.log ((a :: f).filter fun d => name d == name c) (by
        intro he
        have : c ∈ (a :: f).filter fun d => name d == name c := List.mem_filter.mpr ⟨hcm, by simp⟩
        rw [he] at this; simp at this)
      rw [List.mem_filter] at this
      have hn : name (pick L.log ((a :: f).filter fun d => name d == name c)) = name c := by simpa using this.2
      exact ⟨this.1, by rw [hn]; exact hc, rfl⟩
  · intro hall
    unfold noamSelect
    have : (a :: f).find? (fun b => starved W L (name b)) = none := by
      rw [List.find?_eq_none]
      intro b hb; rw [hall b hb]; simp
    rw [this]
    exact skip_spec _ a f

/-- **C73.** The window is 1000 selections. When every action name of the frontier was last executed at a step above the number of selections minus
1000, the first informative action is taken (or the last one); when one of them was not, an action of such a name is. -/
theorem C73_window (hp : PickOK pick) (L : Explorer S A) (s : S) (a : A) (f : List A) :
    ((∀ b ∈ a :: f, ∃ k, L.last (name b) = some k ∧ L.global < k + 1000) → ∃ skipped,
      a :: f = skipped ++ (noamSelect starvationSteps name pick informative L s a f).1 :: (noamSelect starvationSteps name pick informative L s a f).2 ∧
      (∀ b ∈ skipped, informative L.log s b = false) ∧
      ((noamSelect starvationSteps name pick informative L s a f).2 ≠ [] →
        informative L.log s (noamSelect starvationSteps name pick informative L s a f).1 = true)) ∧
    (∀ b ∈ a :: f, (∀ k, L.last (name b) = some k → k + 1000 ≤ L.global) →
      ∀ k, L.last (name (noamSelect starvationSteps name pick informative L s a f).1) = some k → k + 1000 ≤ L.global) := by
  obtain ⟨h1, h2⟩ := C73_selection (W := starvationSteps) (name := name) (informative := informative) hp L s a f
  constructor
  · intro h
    refine h2 fun b hb => ?_
    obtain ⟨k, hk, hlt⟩ := h b hb
    unfold starved
    rw [hk]
    exact decide_eq_false (Nat.not_le.mpr hlt)
  · intro b hb hold k hk
    have := (h1 ⟨b, hb, by
      unfold starved
      cases hl : L.last (name b) with
      | none => rfl
      | some k => exact decide_eq_true (hold k hl)⟩).2.1
    unfold starved at this
    rw [hk] at this
    exact of_decide_eq_true this

/-- Both selections take an action of the frontier, so the theorems above apply to all explorers. -/
theorem C73_selectors (hp : PickOK pick) : SelOK (S := S) (noamSelect W name pick informative) ∧ SelOK (S := S) (A := A) popSelect := by
  constructor
  · intro L s a f
    by_cases h : ∃ b ∈ a :: f, starved W L (name b) = true
    · obtain ⟨h1, h2, h3⟩ := (C73_selection (W := W) (name := name) (informative := informative) hp L s a f).1 h
      refine ⟨h1, ?_, ?_⟩
      · rw [h3]; exact fun x hx => List.mem_of_mem_erase hx
      · rw [h3, List.length_erase_of_mem h1]; simp
    · have h' : ∀ b ∈ a :: f, starved W L (name b) = false := fun b hb => by
        by_contra hc; exact h ⟨b, hb, by simpa using hc⟩
      obtain ⟨pre, e, _, _⟩ := (C73_selection (W := W) (name := name) (informative := informative) hp L s a f).2 h'
      refine ⟨by rw [e]; simp, fun x hx => by rw [e]; simp [hx], ?_⟩
      have := congrArg List.length e
      simp only [List.length_cons, List.length_append] at this
      omega
  · intro L s a f
    exact ⟨by simp [popSelect], fun x hx => List.mem_cons_of_mem _ hx, Nat.le_refl _⟩

end noam
end Props
