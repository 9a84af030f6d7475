import Verif.Model.Explore

/-! Lemmas on the exploration loops. -/
namespace Props
open Model Spec

variable {S A : Type} {E : Env S A}

theorem path_append {s m s' : S} {ts us : List (Try S A)} (h1 : Path E s ts m) (h2 : Path E m us s') : Path E s (ts ++ us) s' := by
  induction ts generalizing s with
  | nil => cases (show s = m from h1); exact h2
  | cons t ts ih => exact ⟨h1.1, h1.2.1, ih h1.2.2⟩

theorem path_append_iff {s s' : S} {ts us : List (Try S A)} : Path E s (ts ++ us) s' ↔ ∃ m, Path E s ts m ∧ Path E m us s' := by
  constructor
  · intro h
    induction ts generalizing s with
    | nil => exact ⟨s, rfl, h⟩
    | cons t ts ih =>
      obtain ⟨m, h1, h2⟩ := ih h.2.2
      exact ⟨m, ⟨h.1, h.2.1, h1⟩, h2⟩
  · rintro ⟨m, h1, h2⟩; exact path_append h1 h2

theorem path_honest {s s' : S} {ts : List (Try S A)} (h : Path E s ts s') : ∀ t ∈ ts, Honest E t := by
  induction ts generalizing s with
  | nil => simp
  | cons t ts ih =>
    intro u hu
    rcases List.mem_cons.mp hu with rfl | hu
    · exact h.2.1
    · exact ih h.2.2 u hu

theorem okCount_append (ts us : List (Try S A)) : okCount (ts ++ us) = okCount ts + okCount us := by
  simp [okCount]
theorem failCount_append (ts us : List (Try S A)) : failCount (ts ++ us) = failCount ts + failCount us := by
  simp [failCount]
theorem count_total (ts : List (Try S A)) : okCount ts + failCount ts = ts.length := by
  induction ts with
  | nil => rfl
  | cons t ts ih =>
    unfold okCount failCount at *
    cases h : t.ok <;> simp [h] <;> omega

theorem observe_honest (E : Env S A) (s : S) (a : A) : Honest E ⟨s, a, (observe E s a).1, (observe E s a).2⟩ := by
  unfold Honest observe
  cases h : E.step s a with
  | none => exact .inr ⟨rfl, rfl, rfl⟩
  | some s' => exact .inl ⟨rfl, rfl⟩

theorem observe_none {s : S} {a : A} (h : (observe E s a).2 = false) : E.step s a = none ∧ (observe E s a).1 = s := by
  unfold observe at *
  cases h' : E.step s a with
  | none => exact ⟨rfl, rfl⟩
  | some s' => rw [h'] at h; simp at h

/-- The attempts of one round: failures in the state `s`, then at most one success. -/
structure Seg (E : Env S A) (s s' : S) (ok : Bool) (L L' : Explorer S A) (pool : List A) (new : List (Try S A × Bool)) : Prop where
  log : L'.log = L.log ++ new
  path : Path E s (new.map Prod.fst) s'
  mem : ∀ t ∈ new, t.1.act ∈ pool
  okc : okCount (new.map Prod.fst) = if ok then 1 else 0
  last : ok = true → ∃ init t, new = init ++ [t] ∧ t.1.ok = true ∧ t.1.after = s' ∧ ∀ u ∈ init, u.1.ok = false
  none : ok = false → ∀ u ∈ new, u.1.ok = false
  fails : L'.failures = L.failures + failCount (new.map Prod.fst)
  stay : ok = false → s' = s

theorem Seg.weaken {s s' : S} {ok : Bool} {L L' : Explorer S A} {pool pool' : List A} {new : List (Try S A × Bool)}
    (h : Seg E s s' ok L L' pool new) (hp : ∀ a ∈ pool, a ∈ pool') : Seg E s s' ok L L' pool' new :=
  ⟨h.log, h.path, fun t ht => hp _ (h.mem t ht), h.okc, h.last, h.none, h.fails, h.stay⟩

/-- Bookkeeping does not matter. -/
theorem Seg.noted {s s' : S} {ok : Bool} {L L' : Explorer S A} {pool : List A} {new : List (Try S A × Bool)}
    (h : Seg E s s' ok L L' pool new) (n : String) (k : Nat) : Seg E s s' ok L (L'.noted n k) pool new :=
  ⟨h.log, h.path, h.mem, h.okc, h.last, h.none, h.fails, h.stay⟩

theorem seg_execute (E : Env S A) (i : Bool) (s : S) (a : A) (L : Explorer S A) :
    Seg E s (execute E i s a L).1 (execute E i s a L).2.1 L (execute E i s a L).2.2 [a]
      [(⟨s, a, (observe E s a).1, (observe E s a).2⟩, i)] where
  log := rfl
  path := ⟨rfl, observe_honest E s a, rfl⟩
  mem := by intro t ht; rw [List.mem_singleton] at ht; subst ht; simp
  okc := by unfold execute okCount; cases h : (observe E s a).2 <;> simp [h]
  last := fun h => ⟨[], _, rfl, h, rfl, by simp⟩
  none := by intro h t ht; rw [List.mem_singleton] at ht; subst ht; exact h
  fails := by unfold execute failCount; cases h : (observe E s a).2 <;> simp [h]
  stay := fun h => (observe_none h).2

/-- A failed round followed by another one. -/
theorem Seg.append {s s' s'' : S} {ok : Bool} {L L' L'' : Explorer S A} {pool : List A} {new new' : List (Try S A × Bool)}
    (h : Seg E s s' false L L' pool new) (h' : Seg E s s'' ok L' L'' pool new') : Seg E s s'' ok L L'' pool (new ++ new') where
  log := by rw [h'.log, h.log, List.append_assoc]
  path := by
    rw [List.map_append]
    have := h.path; rw [h.stay rfl] at this
    exact path_append this h'.path
  mem := by
    intro t ht
    rcases List.mem_append.mp ht with ht | ht
    · exact h.mem t ht
    · exact h'.mem t ht
  okc := by rw [List.map_append, okCount_append, h.okc, h'.okc]; simp
  last := by
    intro hok
    obtain ⟨init, t, e, h1, h2, h3⟩ := h'.last hok
    refine ⟨new ++ init, t, by rw [e, List.append_assoc], h1, h2, fun u hu => ?_⟩
    rcases List.mem_append.mp hu with hu | hu
    · exact h.none rfl u hu
    · exact h3 u hu
  none := by
    intro hok u hu
    rcases List.mem_append.mp hu with hu | hu
    · exact h.none rfl u hu
    · exact h'.none hok u hu
  fails := by rw [h'.fails, h.fails, List.map_append, failCount_append, Nat.add_assoc]
  stay := h'.stay

theorem tryAll_seg (s : S) (a : A) (f : List A) (L : Explorer S A) : ∃ new,
    Seg E s (tryAll E s a f L).state (tryAll E s a f L).ok L (tryAll E s a f L).learner (a :: f) new ∧
    (∀ t ∈ new, t.2 = false) ∧ new.length ≤ (a :: f).length ∧ (tryAll E s a f L).act ∈ a :: f ∧
    ((tryAll E s a f L).ok = false → Dead E (a :: f) s) := by
  induction f generalizing a L with
  | nil =>
    refine ⟨_, seg_execute E false s a L, by simp, by simp, by simp [tryAll], ?_⟩
    intro h b hb
    rw [List.mem_singleton] at hb; subst hb
    exact (observe_none h).1
  | cons b f ih =>
    have h1 := seg_execute E false s a L
    by_cases hok : (execute E false s a L).2.1 = true
    · have e : tryAll E s a (b :: f) L = ⟨a, (execute E false s a L).2.1, (execute E false s a L).1, b :: f, (execute E false s a L).2.2⟩ := by
        simp only [tryAll]; rw [if_pos hok]
      rw [e]
      exact ⟨_, h1.weaken (by simp), by simp, by simp, by simp, fun h => by rw [hok] at h; simp at h⟩
    · have e : tryAll E s a (b :: f) L = tryAll E s b f (execute E false s a L).2.2 := by
        rw [tryAll]; exact if_neg hok
      obtain ⟨new, g1, g2, g3, g4, g5⟩ := ih b (execute E false s a L).2.2
      rw [e]
      have hf : (execute E false s a L).2.1 = false := by simpa using hok
      rw [hf] at h1
      refine ⟨_, (h1.weaken (by simp)).append (g1.weaken fun x hx => List.mem_cons_of_mem _ hx), ?_, ?_, List.mem_cons_of_mem _ g4, ?_⟩
      · intro t ht
        rcases List.mem_append.mp ht with ht | ht
        · rw [List.mem_singleton] at ht; subst ht; rfl
        · exact g2 t ht
      · simp only [List.length_append, List.length_cons, List.length_nil] at *; omega
      · intro h x hx
        rcases List.mem_cons.mp hx with rfl | hx
        · exact (observe_none hf).1
        · exact g5 h x hx

/-- A selection takes one action of the frontier and leaves a shorter one. -/
def SelOK (select : Explorer S A → S → A → List A → A × List A) : Prop :=
  ∀ L s a f, (select L s a f).1 ∈ a :: f ∧ (∀ x ∈ (select L s a f).2, x ∈ a :: f) ∧ (select L s a f).2.length ≤ f.length

theorem noamRound_seg {name : A → String} {select : Explorer S A → S → A → List A → A × List A} (hsel : SelOK select) (step : Nat) (s : S)
    (fuel : Nat) (a : A) (f : List A) (L : Explorer S A) (hf : f.length ≤ fuel) : ∃ new,
    Seg E s (noamRound E name select step s fuel a f L).state (noamRound E name select step s fuel a f L).ok L
      (noamRound E name select step s fuel a f L).learner (a :: f) new ∧
    (∀ t ∈ new, t.2 = true) ∧ new.length ≤ (a :: f).length ∧ new ≠ [] := by
  induction fuel generalizing a f L with
  | zero =>
    obtain ⟨h1, h2, h3⟩ := hsel L s a f
    have e : noamRound E name select step s 0 a f L = ⟨(select L s a f).1, (execute E true s (select L s a f).1 L).2.1,
        (execute E true s (select L s a f).1 L).1, (select L s a f).2, (execute E true s (select L s a f).1 L).2.2.noted (name (select L s a f).1) step⟩ := by
      rw [noamRound.eq_def]
    rw [e]
    exact ⟨_, ((seg_execute E true s _ L).weaken fun x hx => by rw [List.mem_singleton] at hx; subst hx; exact h1).noted _ _, by simp, by simp, by simp⟩
  | succ fuel ih =>
    obtain ⟨h1, h2, h3⟩ := hsel L s a f
    have hseg := ((seg_execute E true s (select L s a f).1 L).weaken (pool' := a :: f)
      fun x hx => by rw [List.mem_singleton] at hx; subst hx; exact h1).noted (name (select L s a f).1) step
    cases hr : (select L s a f).2 with
    | nil =>
      have e : noamRound E name select step s (fuel + 1) a f L = ⟨(select L s a f).1, (execute E true s (select L s a f).1 L).2.1,
          (execute E true s (select L s a f).1 L).1, (select L s a f).2, (execute E true s (select L s a f).1 L).2.2.noted (name (select L s a f).1) step⟩ := by
        rw [noamRound.eq_def]; dsimp only; rw [hr]
      rw [e]
      exact ⟨_, hseg, by simp, by simp, by simp⟩
    | cons b g =>
      by_cases hok : (execute E true s (select L s a f).1 L).2.1 = true
      · have e : noamRound E name select step s (fuel + 1) a f L = ⟨(select L s a f).1, (execute E true s (select L s a f).1 L).2.1,
            (execute E true s (select L s a f).1 L).1, (select L s a f).2, (execute E true s (select L s a f).1 L).2.2.noted (name (select L s a f).1) step⟩ := by
          rw [noamRound.eq_def]; dsimp only; rw [hr]; exact if_pos hok
        rw [e]
        exact ⟨_, hseg, by simp, by simp, by simp⟩
      · have e : noamRound E name select step s (fuel + 1) a f L =
            noamRound E name select step s fuel b g ((execute E true s (select L s a f).1 L).2.2.noted (name (select L s a f).1) step) := by
          rw [noamRound.eq_def]; dsimp only; rw [hr]; exact if_neg hok
        rw [hr] at h2 h3
        obtain ⟨new, g1, g2, g3, g4⟩ := ih b g ((execute E true s (select L s a f).1 L).2.2.noted (name (select L s a f).1) step)
          (by simp only [List.length_cons] at h3; omega)
        rw [e]
        have hf : (execute E true s (select L s a f).1 L).2.1 = false := by simpa using hok
        rw [hf] at hseg
        refine ⟨_, hseg.append (g1.weaken h2), ?_, ?_, by simp⟩
        · intro t ht
          rcases List.mem_append.mp ht with ht | ht
          · rw [List.mem_singleton] at ht; subst ht; rfl
          · exact g2 t ht
        · simp only [List.length_append, List.length_cons, List.length_nil] at *; omega

/-- What an episode may do: `fuel` rounds are left, `step` rounds were made. -/
structure EpisodeSpec (E : Env S A) (F bound : Nat) (acts : List A) (fuel step : Nat) (s : S) (L : Explorer S A) (r : Explored S A)
    (new : List (Try S A × Bool)) : Prop where
  log : r.learner.log = L.log ++ new
  path : Path E s (new.map Prod.fst) r.state
  mem : ∀ t ∈ new, t.1.act ∈ acts
  fails : r.learner.failures = L.failures + failCount (new.map Prod.fst)
  okc : okCount (new.map Prod.fst) ≤ fuel
  yes : r.reached = true → E.goal r.state = true
  no : r.reached = false → r.steps = bound ∧ (∀ t ∈ new, t.1.ok = true → E.goal t.1.after = false) ∧
    (okCount (new.map Prod.fst) = fuel ∨ F ≤ r.learner.failures ∨ Dead E acts r.state)

theorem okCount_seg {s s' : S} {ok : Bool} {L L' : Explorer S A} {pool : List A} {new : List (Try S A × Bool)}
    (h : Seg E s s' ok L L' pool new) (hg : E.goal s' = false) : ∀ t ∈ new, t.1.ok = true → E.goal t.1.after = false := by
  intro t ht hok
  cases ok with
  | false => rw [h.none rfl t ht] at hok; simp at hok
  | true =>
    obtain ⟨init, u, rfl, h1, h2, h3⟩ := h.last rfl
    rcases List.mem_append.mp ht with ht | ht
    · rw [h3 t ht] at hok; simp at hok
    · rw [List.mem_singleton] at ht; subst ht; rw [h2]; exact hg

theorem dead_path {acts : List A} {s s' : S} {ts : List (Try S A)} (hd : Dead E acts s) (hp : Path E s ts s') (hm : ∀ t ∈ ts, t.act ∈ acts) :
    s' = s ∧ okCount ts = 0 := by
  induction ts generalizing s with
  | nil => exact ⟨(show s = s' from hp).symm, rfl⟩
  | cons t ts ih =>
    obtain ⟨h1, h2, h3⟩ := hp
    have hn := hd t.act (hm t (by simp))
    rcases h2 with ⟨_, h2⟩ | ⟨h4, _, h5⟩
    · rw [h1, hn] at h2; simp at h2
    · rw [h5, h1] at h3
      obtain ⟨e1, e2⟩ := ih hd h3 fun u hu => hm u (List.mem_cons_of_mem _ hu)
      refine ⟨e1, ?_⟩
      unfold okCount at *
      rw [List.filter_cons, h4]; simpa using e2

end Props
