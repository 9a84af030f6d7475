import Verif.Props.Explore

/-! C73: what the selection of NOAM really does, and which attempts are learned. -/
namespace Props
open Model Spec

variable {S A : Type} {E : Env S A} {F bound : Nat} {order : List (Try S A × Bool) → List A → List A} {dup : A → Bool} {grounded : List A}
  {name : A → String}

theorem tryAll_fields (s : S) (a : A) (f : List A) (L : Explorer S A) :
    (tryAll E s a f L).learner.last = L.last ∧ (tryAll E s a f L).learner.global = L.global := by
  induction f generalizing a L with
  | nil => exact ⟨rfl, rfl⟩
  | cons b f ih =>
    rw [tryAll]
    by_cases h : (execute E false s a L).2.1 = true
    · rw [if_pos h]; exact ⟨rfl, rfl⟩
    · rw [if_neg h]; exact ih b (execute E false s a L).2.2

/-- Every recorded step lies in the window that counts as starved. -/
def AllOld (W : Nat) (L : Explorer S A) : Prop := ∀ n k, L.last n = some k → k + W ≤ L.global

theorem AllOld.noted {W : Nat} {L : Explorer S A} (h : AllOld W L) {n : String} {k : Nat} (hk : k + W ≤ L.global + 1) : AllOld W (L.noted n k) := by
  intro m j hj
  change Function.update L.last n (some k) m = some j at hj
  change j + W ≤ L.global + 1
  by_cases e : m = n
  · subst e; rw [Function.update_self] at hj; cases hj; exact hk
  · rw [Function.update_of_ne e] at hj
    have := h m j hj; omega

section
variable [DecidableEq A] {W : Nat} {pick : List (Try S A × Bool) → List A → A} {i1 i2 : List (Try S A × Bool) → S → A → Bool}

theorem select_old {L : Explorer S A} (h : AllOld W L) (s : S) (a : A) (f : List A) :
    noamSelect W name pick i1 L s a f = noamSelect W name pick i2 L s a f := by
  have hs : ∀ n, starved W L n = true := by
    intro n
    unfold starved
    cases hl : L.last n with
    | none => rfl
    | some k => exact decide_eq_true (h n k hl)
  unfold noamSelect
  rw [List.find?_cons]
  simp only [hs]

theorem round_old (step : Nat) (s : S) (fuel : Nat) (a : A) (f : List A) (L : Explorer S A) (h : AllOld W L) (hk : step + W ≤ L.global + 1) :
    noamRound E name (noamSelect W name pick i1) step s fuel a f L = noamRound E name (noamSelect W name pick i2) step s fuel a f L ∧
    AllOld W (noamRound E name (noamSelect W name pick i1) step s fuel a f L).learner ∧
    L.global ≤ (noamRound E name (noamSelect W name pick i1) step s fuel a f L).learner.global := by
  induction fuel generalizing a f L with
  | zero =>
    rw [noamRound.eq_def, noamRound.eq_def]
    dsimp only
    rw [select_old (i2 := i2) h s a f]
    refine ⟨rfl, ?_, ?_⟩
    · exact AllOld.noted (L := (execute E true s _ L).2.2) h hk
    · exact Nat.le_succ _
  | succ fuel ih =>
    rw [noamRound.eq_def, noamRound.eq_def E name (noamSelect W name pick i2)]
    dsimp only
    rw [select_old (i2 := i2) h s a f]
    revert a f
    intro a f
    generalize noamSelect W name pick i2 L s a f = x
    have h' : AllOld W ((execute E true s x.1 L).2.2.noted (name x.1) step) := AllOld.noted (L := (execute E true s _ L).2.2) h hk
    have hg : L.global ≤ ((execute E true s x.1 L).2.2.noted (name x.1) step).global := Nat.le_succ _
    cases x.2 with
    | nil => exact ⟨rfl, h', hg⟩
    | cons b g =>
      dsimp only
      by_cases hok : (execute E true s x.1 L).2.1 = true
      · rw [if_pos hok, if_pos hok]; exact ⟨rfl, h', hg⟩
      · rw [if_neg hok, if_neg hok]
        obtain ⟨k1, k2, k3⟩ := ih b g _ h' (Nat.le_trans hk (Nat.succ_le_succ hg))
        exact ⟨k1, k2, Nat.le_trans hg k3⟩

theorem loop_old (acts : List A) (fuel step : Nat) (s : S) (L : Explorer S A) (h : AllOld W L) (hk : step + fuel + W ≤ L.global + 1) :
    noamLoop E F bound order name (noamSelect W name pick i1) acts fuel step s L =
    noamLoop E F bound order name (noamSelect W name pick i2) acts fuel step s L := by
  induction fuel generalizing step s L with
  | zero => rfl
  | succ fuel ih =>
    rw [noamLoop, noamLoop]
    cases order L.log acts with
    | nil => rfl
    | cons a f =>
      dsimp only
      obtain ⟨e, r1, r2⟩ := round_old (E := E) (name := name) (pick := pick) (i1 := i1) (i2 := i2) step s f.length a f L h (by omega)
      rw [← e]
      revert r1 r2
      generalize noamRound E name (noamSelect W name pick i1) step s f.length a f L = r
      intro r1 r2
      by_cases hF : F ≤ L.failures
      · rw [if_pos hF, if_pos hF]
      · rw [if_neg hF, if_neg hF]
        by_cases hok : r.ok = true
        · rw [if_pos hok, if_pos hok]
          by_cases hg : E.goal r.state = true
          · rw [if_pos hg, if_pos hg]
          · rw [if_neg hg, if_neg hg]
            exact ih _ _ _ r1 (by omega)
        · rw [if_neg hok, if_neg hok]
          cases order r.learner.log acts with
          | nil => rfl
          | cons b g =>
            dsimp only
            obtain ⟨f1, f2⟩ := tryAll_fields (E := E) s b g r.learner
            revert f1 f2
            generalize tryAll E s b g r.learner = q
            intro f1 f2
            by_cases hq : q.ok = true
            · rw [if_pos hq, if_pos hq]
              by_cases hg : E.goal q.state = true
              · rw [if_pos hg, if_pos hg]
              · rw [if_neg hg, if_neg hg]
                refine ih _ _ _ (AllOld.noted ?_ ?_) ?_
                · intro n k hn; rw [f1] at hn; rw [f2]; exact r1 n k hn
                · rw [f2]; omega
                · change _ ≤ q.learner.global + 1 + 1; rw [f2]; omega
            · rw [if_neg hq, if_neg hq]

/-- **C73**, limit: the step at which an action was last executed is counted from the start of the episode but compared with the number
of selections in all episodes. When the steps recorded so far and the bound of the episode lie 1000 below that number, every
action counts as starved during the whole episode: the outcome does not depend at all on what the learned models find
informative. -/
theorem C73_limit_always_starved {B : Nat} (s : S) (L : Explorer S A) (hlast : ∀ n k, L.last n = some k → k < B) (hb : bound ≤ B)
    (hg : B + 1000 ≤ L.global + 1) :
    noamExplore E F bound order name (noamSelect starvationSteps name pick i1) dup grounded s L =
    noamExplore E F bound order name (noamSelect starvationSteps name pick i2) dup grounded s L := by
  have hg : B + starvationSteps ≤ L.global + 1 := hg
  unfold noamExplore
  refine loop_old _ _ _ _ _ ?_ ?_
  · intro n k hn
    have := hlast n k hn
    change k + _ ≤ L.global
    omega
  · change 0 + bound + _ ≤ L.global + 1
    omega

end

theorem round_last {select : Explorer S A → S → A → List A → A × List A} {B : Nat} (step : Nat) (s : S) (fuel : Nat) (a : A) (f : List A)
    (L : Explorer S A) (hB : step < B) (h : ∀ n k, L.last n = some k → k < B) :
    (∀ n k, (noamRound E name select step s fuel a f L).learner.last n = some k → k < B) ∧
    L.global < (noamRound E name select step s fuel a f L).learner.global := by
  have noted : ∀ (M : Explorer S A) n, (∀ n k, M.last n = some k → k < B) → ∀ m k, (M.noted n step).last m = some k → k < B := by
    intro M n hM m k hk
    change Function.update M.last n (some step) m = some k at hk
    by_cases e : m = n
    · subst e; rw [Function.update_self] at hk; cases hk; exact hB
    · rw [Function.update_of_ne e] at hk; exact hM m k hk
  induction fuel generalizing a f L with
  | zero =>
    rw [noamRound.eq_def]
    dsimp only
    exact ⟨noted _ _ h, Nat.lt_succ_self _⟩
  | succ fuel ih =>
    rw [noamRound.eq_def]
    dsimp only
    generalize select L s a f = x
    cases x.2 with
    | nil => exact ⟨noted _ _ h, Nat.lt_succ_self _⟩
    | cons b g =>
      dsimp only
      by_cases hok : (execute E true s x.1 L).2.1 = true
      · rw [if_pos hok]; exact ⟨noted _ _ h, Nat.lt_succ_self _⟩
      · rw [if_neg hok]
        obtain ⟨k1, k2⟩ := ih b g ((execute E true s x.1 L).2.2.noted (name x.1) step) (noted _ _ h)
        exact ⟨k1, Nat.lt_trans (Nat.lt_succ_self _) k2⟩

theorem loop_last {select : Explorer S A → S → A → List A → A × List A} {B : Nat} (acts : List A) (fuel step : Nat) (s : S)
    (L : Explorer S A) (hB : step + fuel ≤ B) (h : ∀ n k, L.last n = some k → k < B) :
    (∀ n k, (noamLoop E F bound order name select acts fuel step s L).learner.last n = some k → k < B) ∧
    L.global ≤ (noamLoop E F bound order name select acts fuel step s L).learner.global := by
  induction fuel generalizing step s L with
  | zero => exact ⟨h, Nat.le_refl _⟩
  | succ fuel ih =>
    rw [noamLoop]
    cases order L.log acts with
    | nil => exact ⟨h, Nat.le_refl _⟩
    | cons a f =>
      dsimp only
      obtain ⟨r1, r2⟩ := round_last (E := E) (name := name) (select := select) step s f.length a f L (B := B) (by omega) h
      revert r1 r2
      generalize noamRound E name select step s f.length a f L = r
      intro r1 r2
      by_cases hF : F ≤ L.failures
      · rw [if_pos hF]; exact ⟨h, Nat.le_refl _⟩
      · rw [if_neg hF]
        by_cases hok : r.ok = true
        · rw [if_pos hok]
          by_cases hg : E.goal r.state = true
          · rw [if_pos hg]; exact ⟨r1, Nat.le_of_lt r2⟩
          · rw [if_neg hg]
            obtain ⟨k1, k2⟩ := ih (step + 1) r.state r.learner (by omega) r1
            exact ⟨k1, by omega⟩
        · rw [if_neg hok]
          cases order r.learner.log acts with
          | nil => exact ⟨r1, Nat.le_of_lt r2⟩
          | cons b g =>
            dsimp only
            obtain ⟨f1, f2⟩ := tryAll_fields (E := E) s b g r.learner
            revert f1 f2
            generalize tryAll E s b g r.learner = q
            intro f1 f2
            have hq2 : ∀ n k, (q.learner.noted (name q.act) step).last n = some k → k < B := by
              intro m k hk
              change Function.update q.learner.last (name q.act) (some step) m = some k at hk
              by_cases e : m = name q.act
              · subst e; rw [Function.update_self] at hk; cases hk; omega
              · rw [Function.update_of_ne e, f1] at hk; exact r1 m k hk
            have hq3 : L.global ≤ (q.learner.noted (name q.act) step).global := by
              change _ ≤ q.learner.global + 1; omega
            by_cases hq : q.ok = true
            · rw [if_pos hq]
              by_cases hg : E.goal q.state = true
              · rw [if_pos hg]; exact ⟨hq2, hq3⟩
              · rw [if_neg hg]
                obtain ⟨k1, k2⟩ := ih (step + 1) q.state _ (by omega) hq2
                exact ⟨k1, Nat.le_trans hq3 k2⟩
            · rw [if_neg hq]; exact ⟨hq2, hq3⟩

/-- C73: the hypotheses of `C73_limit_always_starved` are kept by every episode: the recorded steps stay below the bounds of the episodes,
while the number of selections only grows. -/
theorem C73_recorded_steps {select : Explorer S A → S → A → List A → A × List A} {B : Nat} (hb : bound ≤ B) (s : S) (L : Explorer S A)
    (h : ∀ n k, L.last n = some k → k < B) :
    (∀ n k, (noamExplore E F bound order name select dup grounded s L).learner.last n = some k → k < B) ∧
    L.global ≤ (noamExplore E F bound order name select dup grounded s L).learner.global :=
  loop_last (L := { L with failures := 0 }) _ _ _ _ (by omega) h

/-! ### Which attempts are learned -/

theorem pop_round_dead (step : Nat) (s : S) (fuel : Nat) (a : A) (f : List A) (L : Explorer S A) (hf : f.length ≤ fuel)
    (h : (noamRound E name popSelect step s fuel a f L).ok = false) : Dead E (a :: f) s := by
  induction fuel generalizing a f L with
  | zero =>
    have : f = [] := List.length_eq_zero_iff.mp (Nat.le_zero.mp hf)
    subst this
    intro b hb
    rw [List.mem_singleton] at hb; subst hb
    exact (observe_none h).1
  | succ fuel ih =>
    cases f with
    | nil =>
      intro b hb
      rw [List.mem_singleton] at hb; subst hb
      rw [noamRound.eq_def] at h
      exact (observe_none h).1
    | cons c g =>
      rw [noamRound.eq_def] at h
      dsimp only [popSelect] at h
      by_cases hok : (execute E true s a L).2.1 = true
      · rw [if_pos hok] at h
        dsimp only at h; rw [hok] at h; simp at h
      · rw [if_neg hok] at h
        have := ih c g _ (by simpa using hf) h
        intro b hb
        rcases List.mem_cons.mp hb with rfl | hb
        · have hok' : (execute E true s b L).2.1 = false := by simpa using hok
          exact (observe_none hok').1
        · exact this b hb

theorem pop_loop_learned (ho : OrderOK order) (acts : List A) (fuel step : Nat) (s : S) (L : Explorer S A) :
    ∀ t ∈ (noamLoop E F bound order name popSelect acts fuel step s L).learner.log, t ∈ L.log ∨ (t.1.ok = true → t.2 = true) := by
  induction fuel generalizing step s L with
  | zero => intro t ht; exact .inl ht
  | succ fuel ih =>
    rw [noamLoop]
    cases hord : order L.log acts with
    | nil => intro t ht; exact .inl ht
    | cons a f =>
      dsimp only
      have hsel : SelOK (S := S) (A := A) popSelect := fun L s a f =>
        ⟨by simp [popSelect], fun x hx => List.mem_cons_of_mem _ hx, Nat.le_refl _⟩
      have hdead := pop_round_dead (E := E) (name := name) step s f.length a f L (Nat.le_refl _)
      obtain ⟨new, g1, g2, _⟩ := noamRound_seg (E := E) (name := name) hsel step s f.length a f L (Nat.le_refl _)
      have hperm : (a :: f).Perm acts := hord ▸ ho L.log acts
      revert hdead g1
      generalize noamRound E name popSelect step s f.length a f L = r
      intro hdead g1
      have hr : ∀ t ∈ r.learner.log, t ∈ L.log ∨ (t.1.ok = true → t.2 = true) := by
        intro t ht
        rw [g1.log] at ht
        rcases List.mem_append.mp ht with ht | ht
        · exact .inl ht
        · exact .inr fun _ => g2 t ht
      by_cases hF : F ≤ L.failures
      · rw [if_pos hF]; intro t ht; exact .inl ht
      · rw [if_neg hF]
        by_cases hok : r.ok = true
        · rw [if_pos hok]
          by_cases hg : E.goal r.state = true
          · rw [if_pos hg]; exact hr
          · rw [if_neg hg]
            intro t ht
            rcases ih _ _ _ t ht with h | h
            · exact hr t h
            · exact .inr h
        · rw [if_neg hok]
          have hd := hdead (by simpa using hok)
          cases hord2 : order r.learner.log acts with
          | nil => exact hr
          | cons b g =>
            dsimp only
            have hperm2 : (b :: g).Perm acts := hord2 ▸ ho r.learner.log acts
            obtain ⟨nq, q1, q2, q3, q4, q5⟩ := tryAll_seg (E := E) s b g r.learner
            have hq : (tryAll E s b g r.learner).ok = false := by
              by_contra hc
              have hc' : (tryAll E s b g r.learner).ok = true := by simpa using hc
              obtain ⟨init, t, e, h1, _⟩ := q1.last hc'
              have hm : t ∈ nq := by rw [e]; simp
              have hbf : t.1.before = s := by
                rw [e] at q1
                have hp := q1.path
                rw [List.map_append] at hp
                obtain ⟨m, p1, p2⟩ := path_append_iff.mp hp
                have := dead_path (fun x hx => hd x (hperm.mem_iff.mpr (hperm2.mem_iff.mp hx))) p1 (by
                  intro u hu
                  obtain ⟨w, hw, rfl⟩ := List.mem_map.mp hu
                  exact q1.mem w (List.mem_append_left _ hw))
                rw [p2.1, this.1]
              have hh := path_honest q1.path t.1 (List.mem_map.mpr ⟨t, hm, rfl⟩)
              have hnone := hd t.1.act (hperm.mem_iff.mpr (hperm2.mem_iff.mp (q1.mem t hm)))
              rcases hh with ⟨_, hh⟩ | ⟨hh, _⟩
              · rw [hbf, hnone] at hh; simp at hh
              · rw [h1] at hh; simp at hh
            rw [if_neg (by rw [hq]; simp)]
            intro t ht
            change t ∈ (tryAll E s b g r.learner).learner.log at ht
            rw [q1.log] at ht
            rcases List.mem_append.mp ht with ht | ht
            · exact hr t ht
            · exact .inr fun h => by rw [q1.none hq t ht] at h; simp at h

/-- **C73.** The explorers that try the frontier in its order learn from every successful attempt. -/
theorem C73_goal_oriented_learns_all (ho : OrderOK order) (s : S) (L : Explorer S A) :
    ∀ t ∈ (noamExplore E F bound order name popSelect dup grounded s L).learner.log, t ∈ L.log ∨ (t.1.ok = true → t.2 = true) :=
  pop_loop_learned ho _ _ _ _ _

/-! ### Concrete episodes in the environment `counter` -/

/-- Actions in the given order, and nothing counts as informative. -/
def sameOrder : List (Try Nat String × Bool) → List String → List String := fun _ l => l
example : OrderOK sameOrder := fun _ l => List.Perm.refl l
def firstPick : List (Try Nat String × Bool) → List String → String := fun _ l => l.headD ""
/-- The first hypothesis of `C73_window` is met by a learner with 900 selections whose actions were executed at step 5; after 1005 selections all count as starved. -/
example : (∀ b ∈ ["inc", "noop"], ∃ k, (⟨[], 0, fun _ => some 5, 900⟩ : Explorer Nat String).last b = some k ∧ 900 < k + 1000) ∧
    ∀ b ∈ ["inc", "noop"], ∀ k, (⟨[], 0, fun _ => some 5, 1005⟩ : Explorer Nat String).last b = some k → k + 1000 ≤ 1005 := by
  refine ⟨fun b _ => ⟨5, rfl, by omega⟩, fun b _ k hk => ?_⟩
  cases hk
  omega

example : PickOK firstPick := fun _ l h => by cases l with | nil => exact absurd rfl h | cons a l => simp [firstPick]

/-- An episode that reaches the goal in two steps, after two failures. -/
example : (semiExplore counter 50 10 sameOrder (fun _ => false) ["noop", "inc"] 0 .init).reached = true ∧
    (semiExplore counter 50 10 sameOrder (fun _ => false) ["noop", "inc"] 0 .init).steps = 2 ∧
    (semiExplore counter 50 10 sameOrder (fun _ => false) ["noop", "inc"] 0 .init).learner.log.map (fun t => (t.1.act, t.1.ok)) =
      [("noop", false), ("inc", true), ("noop", false), ("inc", true)] := by decide +kernel

/-- The goal of the initial state is not noticed, and a goal that was left behind is not found again. -/
theorem C72_limit_initial_goal :
    (semiExplore counter 50 10 sameOrder (fun _ => false) ["inc"] 2 .init).reached = false ∧
    (semiExplore counter 50 10 sameOrder (fun _ => false) ["inc"] 2 .init).steps = 10 := by decide +kernel

/-- **C73**, limit: with starvation window 1000 as in the code: `inc` was executed recently and is not informative, so the
informative search passes over it and fails with `noop`; the fallback then executes `inc` successfully, but this success is never
integrated in the models. -/
theorem C73_limit_success_not_learned :
    ((noamExplore counter 50 1 sameOrder id (noamSelect starvationSteps id firstPick fun _ _ _ => false) (fun _ => false) ["inc", "noop"] 0
      ⟨[], 0, fun _ => some 0, 5⟩).learner.log.map fun t => (t.1.act, t.1.ok, t.2)) =
      [("noop", false, true), ("inc", true, false)] := by decide +kernel

/-- The hypotheses of `C73_limit_always_starved` hold for a learner that has been running for a while. -/
example : (∀ n k, (⟨[], 0, fun n => if n = "inc" then some 1 else none, 1200⟩ : Explorer Nat String).last n = some k → k < 10) ∧
    10 + 1000 ≤ 1200 + 1 := by
  refine ⟨?_, by decide⟩
  intro n k h
  dsimp only at h
  split at h
  · cases h; decide
  · simp at h

end Props
