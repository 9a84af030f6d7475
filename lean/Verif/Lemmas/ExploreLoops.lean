import Verif.Lemmas.Explore
import Mathlib.Tactic.Common

/-! The loops of the exploration. -/
namespace Props
open Model Spec

variable {S A : Type} {E : Env S A}

/-- An episode that begins with a successful or failed round. -/
theorem EpisodeSpec.cons {F bound fuel step : Nat} {acts : List A} {s s' : S} {ok : Bool} {L L' : Explorer S A} {r : Explored S A}
    {new new' : List (Try S A × Bool)} (h : Seg E s s' ok L L' acts new) (hg : E.goal s' = false) (hd : ok = false → Dead E acts s)
    (h' : EpisodeSpec E F bound acts fuel (step + 1) s' L' r new') : EpisodeSpec E F bound acts (fuel + 1) step s L r (new ++ new') where
  log := by rw [h'.log, h.log, List.append_assoc]
  path := by rw [List.map_append]; exact path_append h.path h'.path
  mem := by
    intro t ht
    rcases List.mem_append.mp ht with ht | ht
    · exact h.mem t ht
    · exact h'.mem t ht
  fails := by rw [h'.fails, h.fails, List.map_append, failCount_append, Nat.add_assoc]
  okc := by
    have := h.okc; have := h'.okc
    rw [List.map_append, okCount_append]
    cases ok <;> simp at * <;> omega
  yes := h'.yes
  no := by
    intro hr
    obtain ⟨h1, h2, h3⟩ := h'.no hr
    refine ⟨h1, ?_, ?_⟩
    · intro t ht hok
      rcases List.mem_append.mp ht with ht | ht
      · exact okCount_seg h hg t ht hok
      · exact h2 t ht hok
    · rcases h3 with h3 | h3
      · cases ok with
        | true =>
          left
          rw [List.map_append, okCount_append, h.okc, h3]; simp; omega
        | false =>
          right; right
          have e := h.stay rfl
          subst e
          obtain ⟨e1, _⟩ := dead_path (hd rfl) h'.path fun t ht => by
            obtain ⟨u, hu, rfl⟩ := List.mem_map.mp ht
            exact h'.mem u hu
          rw [e1]; exact hd rfl
      · exact .inr h3

/-- An episode that ends without any further round. -/
theorem EpisodeSpec.stop {F bound fuel step : Nat} {acts : List A} {s : S} {L : Explorer S A}
    (h : fuel = 0 ∨ F ≤ L.failures ∨ Dead E acts s) : EpisodeSpec E F bound acts fuel step s L ⟨false, bound, s, L⟩ [] where
  log := by simp
  path := rfl
  mem := by simp
  fails := by simp [failCount]
  okc := by simp [okCount]
  yes := by simp
  no := fun _ => ⟨rfl, by simp, by
    rcases h with rfl | h | h
    · left; rfl
    · exact .inr (.inl h)
    · exact .inr (.inr h)⟩

/-- An episode whose last round reaches the goal. -/
theorem EpisodeSpec.goal {F bound fuel step n : Nat} {acts : List A} {s s' : S} {ok : Bool} {L L' : Explorer S A}
    {new : List (Try S A × Bool)} (h : Seg E s s' ok L L' acts new) (hg : E.goal s' = true) :
    EpisodeSpec E F bound acts (fuel + 1) step s L ⟨true, n, s', L'⟩ new where
  log := h.log
  path := h.path
  mem := h.mem
  fails := h.fails
  okc := by rw [h.okc]; split <;> omega
  yes := fun _ => hg
  no := by simp

/-- The random order permutes. -/
def OrderOK (order : List (Try S A × Bool) → List A → List A) : Prop := ∀ h l, (order h l).Perm l

theorem OrderOK.nil {order : List (Try S A × Bool) → List A → List A} (ho : OrderOK order) {h : List (Try S A × Bool)} {acts : List A}
    (hn : order h acts = []) (s : S) : Dead E acts s := by
  have := ho h acts
  rw [hn] at this
  rw [List.nil_perm.mp this]
  intro a ha; simp at ha

theorem failCount_le {new : List (Try S A × Bool)} : failCount (new.map Prod.fst) ≤ new.length := by
  have := count_total (new.map Prod.fst)
  rw [List.length_map] at this
  omega

theorem semiLoop_spec {F bound : Nat} {order : List (Try S A × Bool) → List A → List A} (ho : OrderOK order) (acts : List A)
    (fuel step : Nat) (s : S) (L : Explorer S A) : ∃ new,
    EpisodeSpec E F bound acts fuel step s L (semiLoop E F bound order acts fuel step s L) new ∧
    (∀ t ∈ new, t.2 = false) ∧
    (semiLoop E F bound order acts fuel step s L).learner.failures ≤ max L.failures (F + acts.length - 1) ∧
    (L.failures < F → acts ≠ [] → 0 < fuel → new ≠ []) ∧
    ((semiLoop E F bound order acts fuel step s L).reached = true →
      step + okCount (new.map Prod.fst) ≤ (semiLoop E F bound order acts fuel step s L).steps ∧
      (semiLoop E F bound order acts fuel step s L).steps ≤ step + fuel) := by
  induction fuel generalizing step s L with
  | zero => exact ⟨[], .stop (.inl rfl), by simp, Nat.le_max_left _ _, by simp, by simp [semiLoop]⟩
  | succ fuel ih =>
    rw [semiLoop]
    cases hord : order L.log acts with
    | nil =>
      refine ⟨[], .stop (.inr (.inr (ho.nil hord s))), by simp, Nat.le_max_left _ _, ?_, by simp⟩
      intro _ hne
      exact absurd (List.nil_perm.mp (hord ▸ ho L.log acts)) hne
    | cons a f =>
      dsimp only
      by_cases hF : F ≤ L.failures
      · rw [if_pos hF]
        exact ⟨[], .stop (.inr (.inl hF)), by simp, Nat.le_max_left _ _, fun h => by omega, by simp⟩
      · rw [if_neg hF]
        have hperm : (a :: f).Perm acts := hord ▸ ho L.log acts
        obtain ⟨new, g1, g2, g3, g4, g5⟩ := tryAll_seg (E := E) s a f L
        have g1' := g1.weaken (pool' := acts) fun x hx => hperm.mem_iff.mp hx
        have hd : (tryAll E s a f L).ok = false → Dead E acts s := fun h b hb => g5 h b (hperm.mem_iff.mpr hb)
        have hfc := failCount_le (new := new)
        have hlen := hperm.length_eq
        have hne : new ≠ [] := by
          rintro rfl
          cases hok : (tryAll E s a f L).ok with
          | true => have := g1.okc; rw [hok] at this; simp [okCount] at this
          | false =>
            have h1 := g1.log
            clear ih
            revert h1
            generalize L = M
            cases f with
            | nil => simp [tryAll, execute]
            | cons b f =>
              intro h1
              obtain ⟨n2, q1, q2, q3, q4, q5⟩ := tryAll_seg (E := E) s b f (execute E false s a M).2.2
              rw [tryAll] at h1
              by_cases hc : (execute E false s a M).2.1 = true
              · rw [if_pos hc] at h1
                simp [execute] at h1
              · rw [if_neg hc, q1.log] at h1
                simp [execute] at h1
        have hfail := g1.fails
        by_cases hg : E.goal (tryAll E s a f L).state = true
        · rw [if_pos hg]
          refine ⟨new, .goal g1' hg, g2, ?_, fun _ _ _ => hne, fun _ => ⟨?_, ?_⟩⟩
          · dsimp only; rw [hfail]; omega
          · dsimp only; rw [g1.okc]; split <;> omega
          · dsimp only; omega
        · rw [if_neg hg]
          obtain ⟨new', k1, k2, k3, k4, k5⟩ := ih (step + 1) (tryAll E s a f L).state (tryAll E s a f L).learner
          refine ⟨new ++ new', .cons g1' (by simpa using hg) hd k1, ?_, ?_, fun _ _ _ => by simp [hne], fun hr => ?_⟩
          · intro t ht
            rcases List.mem_append.mp ht with ht | ht
            · exact g2 t ht
            · exact k2 t ht
          · refine Nat.le_trans k3 ?_
            rw [hfail]; omega
          · obtain ⟨m1, m2⟩ := k5 hr
            rw [List.map_append, okCount_append, g1.okc]
            constructor
            · split <;> omega
            · omega

theorem noamLoop_spec {F bound : Nat} {order : List (Try S A × Bool) → List A → List A} (ho : OrderOK order) {name : A → String}
    {select : Explorer S A → S → A → List A → A × List A} (hsel : SelOK select) (acts : List A)
    (fuel step : Nat) (s : S) (L : Explorer S A) : ∃ new,
    EpisodeSpec E F bound acts fuel step s L (noamLoop E F bound order name select acts fuel step s L) new ∧
    (noamLoop E F bound order name select acts fuel step s L).learner.failures ≤ max L.failures (F + 2 * acts.length - 1) ∧
    ((noamLoop E F bound order name select acts fuel step s L).reached = true →
      (noamLoop E F bound order name select acts fuel step s L).steps = step + okCount (new.map Prod.fst) ∧
      ∃ init t, new = init ++ [t] ∧ t.1.ok = true ∧ ∀ u ∈ init, u.1.ok = true → E.goal u.1.after = false) := by
  induction fuel generalizing step s L with
  | zero => exact ⟨[], .stop (.inl rfl), Nat.le_max_left _ _, by simp [noamLoop]⟩
  | succ fuel ih =>
    rw [noamLoop]
    cases hord : order L.log acts with
    | nil => exact ⟨[], .stop (.inr (.inr (ho.nil hord s))), Nat.le_max_left _ _, by simp⟩
    | cons a f =>
      dsimp only
      by_cases hF : F ≤ L.failures
      · rw [if_pos hF]
        exact ⟨[], .stop (.inr (.inl hF)), Nat.le_max_left _ _, by simp⟩
      · rw [if_neg hF]
        have hperm : (a :: f).Perm acts := hord ▸ ho L.log acts
        obtain ⟨new, g1, g2, g3, g4⟩ := noamRound_seg (E := E) (name := name) hsel step s f.length a f L (Nat.le_refl _)
        have g1' := g1.weaken (pool' := acts) fun x hx => hperm.mem_iff.mp hx
        have hfc := failCount_le (new := new)
        have hlen := hperm.length_eq
        have hfail := g1.fails
        revert g1 g1' hfail
        generalize noamRound E name select step s f.length a f L = r
        intro g1 g1' hfail
        -- what a successful round leads to
        have succ : ∀ (s' : S) (L' : Explorer S A) (nw : List (Try S A × Bool)), Seg E s s' true L L' acts nw →
            nw.length ≤ 2 * acts.length →
            ∃ new', EpisodeSpec E F bound acts (fuel + 1) step s L
                (if E.goal s' = true then ⟨true, step + 1, s', L'⟩ else noamLoop E F bound order name select acts fuel (step + 1) s' L') new' ∧
              (if E.goal s' = true then (⟨true, step + 1, s', L'⟩ : Explored S A) else noamLoop E F bound order name select acts fuel (step + 1) s' L').learner.failures
                ≤ max L.failures (F + 2 * acts.length - 1) ∧
              ((if E.goal s' = true then (⟨true, step + 1, s', L'⟩ : Explored S A) else noamLoop E F bound order name select acts fuel (step + 1) s' L').reached = true →
                (if E.goal s' = true then (⟨true, step + 1, s', L'⟩ : Explored S A) else noamLoop E F bound order name select acts fuel (step + 1) s' L').steps
                  = step + okCount (new'.map Prod.fst) ∧
                ∃ init t, new' = init ++ [t] ∧ t.1.ok = true ∧ ∀ u ∈ init, u.1.ok = true → E.goal u.1.after = false) := by
          intro s' L' nw hs hl
          have hfc' := failCount_le (new := nw)
          have hfl := hs.fails
          by_cases hg : E.goal s' = true
          · rw [if_pos hg]
            refine ⟨nw, .goal hs hg, ?_, fun _ => ⟨?_, ?_⟩⟩
            · dsimp only; rw [hfl]; omega
            · dsimp only; rw [hs.okc]; rfl
            · obtain ⟨init, t, e, h1, h2, h3⟩ := hs.last rfl
              exact ⟨init, t, e, h1, fun u hu hok => by rw [h3 u hu] at hok; simp at hok⟩
          · rw [if_neg hg]
            have hg' : E.goal s' = false := by simpa using hg
            obtain ⟨n', k1, k2, k3⟩ := ih (step + 1) s' L'
            refine ⟨nw ++ n', .cons hs hg' (by simp) k1, Nat.le_trans k2 (by rw [hfl]; omega), fun hr => ?_⟩
            obtain ⟨m1, init, t, e, m2, m3⟩ := k3 hr
            refine ⟨?_, nw ++ init, t, by rw [e, List.append_assoc], m2, ?_⟩
            · rw [m1, List.map_append, okCount_append, hs.okc]; simp; omega
            · intro u hu hok
              rcases List.mem_append.mp hu with hu | hu
              · exact okCount_seg hs hg' u hu hok
              · exact m3 u hu hok
        by_cases hok : r.ok = true
        · rw [if_pos hok]
          rw [hok] at g1'
          exact succ _ _ new g1' (by omega)
        · rw [if_neg hok]
          have hok' : r.ok = false := by simpa using hok
          rw [hok'] at g1'
          cases hord2 : order r.learner.log acts with
          | nil =>
            have := (ho r.learner.log acts).length_eq
            rw [hord2] at this
            simp only [List.length_cons, List.length_nil] at *
            omega
          | cons b g =>
            dsimp only
            have hperm2 : (b :: g).Perm acts := hord2 ▸ ho r.learner.log acts
            obtain ⟨nq, q1, q2, q3, q4, q5⟩ := tryAll_seg (E := E) s b g r.learner
            have q1' := (q1.weaken (pool' := acts) fun x hx => hperm2.mem_iff.mp hx).noted (name (tryAll E s b g r.learner).act) step
            have hlen2 := hperm2.length_eq
            revert q1' q5
            generalize tryAll E s b g r.learner = q
            intro q5 q1'
            have hall := g1'.append q1'
            by_cases hq : q.ok = true
            · rw [if_pos hq]
              rw [hq] at hall
              refine succ _ _ _ hall ?_
              rw [List.length_append]; omega
            · rw [if_neg hq]
              have hq' : q.ok = false := by simpa using hq
              rw [hq'] at hall
              have hdead : Dead E acts s := fun x hx => q5 hq' x (hperm2.mem_iff.mpr hx)
              have hst := hall.stay rfl
              have hfc2 := failCount_le (new := new ++ nq)
              refine ⟨new ++ nq, ⟨hall.log, ?_, hall.mem, hall.fails, ?_, by simp, fun _ => ⟨rfl, ?_, .inr (.inr hdead)⟩⟩, ?_, by simp⟩
              · have := hall.path; rw [hst] at this; exact this
              · rw [hall.okc]; simp
              · intro t ht h; rw [hall.none rfl t ht] at h; simp at h
              · dsimp only
                rw [hall.fails]
                rw [List.length_append] at hfc2
                omega

end Props
