import Verif.Lemmas.NumMatch
import Verif.Model.OnlineTraining
import Verif.Props.OnlineSafety

/-! C110: from lessons to the safe domain, with the concrete learners. -/
namespace Props
namespace OnlineTraining
open Model Spec Model.OnlineDomain Props.OnlineDomain Props.OnlineSafety Model.OnlineTraining

variable {K : Type} [Field K] [LinearOrder K] [IsStrictOrderedRing K] [FloorRing K]

/-- The transitions that a lesson shows to the learners. -/
def shown : Model.OnlineTraining.Lesson K → List (Obs K)
  | .trace t => t.filter fun o => !containsDuplicates o.params
  | .explored t _ => t

/-- The successful attempts at an action. -/
def successesAt (a : String) (os : List (Obs K)) : List (Obs K) := os.filter fun o => o.call.name == a && o.ok

/-- How the two learners see a transition. -/
def attemptOf (o : Obs K) : Attempt := ⟨o.call.ρ, o.before.1, o.after.1, o.ok⟩
def transitionOf (read : Reader K) (o : Obs K) : Transition K := ⟨read o.call o.before.2, read o.call o.after.2, o.ok⟩

/-- What the learners of an action know: some attempts and transitions whose successes are exactly those observed, whose failures were
observed, and the undecided ones were too. -/
structure Taught (cfg : ONumCfg K) (read : Reader K) (a : String) (V : Finset Lit) (fs : List String) (degree : Nat) (os : List (Obs K)) (P : Pupil K)
    (x : Experience K) : Prop where
  voc : x.voc = V
  functions : x.functions = fs
  deg : x.degree = degree
  disc : P.disc = learned V x.attempts
  num : onumLearned cfg fs degree x.transitions = (P.num, false)
  attempts : x.attempts.filter (·.ok) = (successesAt a os).map attemptOf
  transitions : x.transitions.filter (·.ok) = (successesAt a os).map (transitionOf read)
  failedA : ∀ b ∈ x.attempts, b.ok = false → ∃ o ∈ os, o.call.name = a ∧ o.ok = false ∧ b = attemptOf o
  failedT : ∀ t ∈ x.transitions, t.ok = false → ∃ o ∈ os, o.call.name = a ∧ o.ok = false ∧ t.pre = read o.call o.before.2
  undecided : ∀ u ∈ P.undecided, ∃ o ∈ os, o.call.name = a ∧ o.ok = false ∧ u = (seen V o.call.ρ o.before.1, read o.call o.before.2)

theorem onum_snoc {cfg : ONumCfg K} {fs : List String} {degree : Nat} {ts : List (Transition K)} {st : ONum K} {t : Transition K}
    (h : onumLearned cfg fs degree ts = (st, false)) (ht : (st.add cfg t).2 = false) :
    onumLearned cfg fs degree (ts ++ [t]) = ((st.add cfg t).1, false) := by
  unfold onumLearned ONum.run at *
  rw [List.foldl_append, h]
  simp [ht]

theorem learned_snoc {V : Finset Lit} {h : List Attempt} (b : Attempt) :
    learned V (h ++ [b]) = (learned V h).add (seen V b.ρ b.before) (seen V b.ρ b.after) b.ok := by
  have e : (learned V h).superset = V := learned_superset
  unfold learned at *
  unfold DiscreteOnline.feed at *
  rw [List.foldl_append, List.foldl_cons, List.foldl_nil, e]

theorem add_failed (L : DiscreteOnline) (pre post post' : Finset Lit) : L.add pre post false = L.add pre post' false := by
  unfold DiscreteOnline.add; rfl

theorem num_failed {cfg : ONumCfg K} {st : ONum K} {fl post : List (String × K)} : (st.add cfg ⟨fl, post, false⟩).2 = false := by
  unfold ONum.add; rfl

theorem failure_taught {cfg : ONumCfg K} {read : Reader K} {a : String} {V : Finset Lit} {fs : List String} {degree : Nat} {os : List (Obs K)}
    {P P' : Pupil K} {x : Experience K} (T : Taught cfg read a V fs degree os P x) {o : Obs K} (ho : o ∈ os) (hn : o.call.name = a) (hf : o.ok = false)
    (h : P.handleFailure cfg (seen V o.call.ρ o.before.1) (read o.call o.before.2) = .ok P') : ∃ x', Taught cfg read a V fs degree os P' x' := by
  unfold Pupil.handleFailure at h
  by_cases hs : P.disc.inSafe (seen V o.call.ρ o.before.1) = true
  · rw [if_pos hs] at h
    cases h
    refine ⟨{ x with transitions := x.transitions ++ [⟨read o.call o.before.2, [], false⟩] }, ?_⟩
    exact
      { voc := T.voc, functions := T.functions, deg := T.deg, disc := T.disc
        num := onum_snoc T.num num_failed
        attempts := T.attempts
        transitions := by rw [List.filter_append, T.transitions]; simp
        failedA := T.failedA
        failedT := fun t ht hk => by
          rcases List.mem_append.mp ht with ht | ht
          · exact T.failedT t ht hk
          · rw [List.mem_singleton.mp ht]; exact ⟨o, ho, hn, hf, rfl⟩
        undecided := T.undecided }
  · rw [if_neg hs] at h
    cases hi : P.num.inSafe cfg (read o.call o.before.2) with
    | error e => rw [hi] at h; cases h
    | ok b =>
      rw [hi] at h
      cases b with
      | true =>
        cases h
        refine ⟨{ x with attempts := x.attempts ++ [attemptOf o] }, ?_⟩
        exact
          { voc := T.voc, functions := T.functions, deg := T.deg
            disc := by
              dsimp only
              rw [learned_snoc, T.disc]
              show _ = (learned V x.attempts).add (seen V o.call.ρ o.before.1) _ o.ok
              rw [hf]
              exact add_failed _ _ _ _
            num := T.num
            attempts := by rw [List.filter_append, T.attempts]; simp [attemptOf, hf]
            transitions := T.transitions
            failedA := fun b hb hk => by
              rcases List.mem_append.mp hb with hb | hb
              · exact T.failedA b hb hk
              · rw [List.mem_singleton.mp hb]; exact ⟨o, ho, hn, hf, rfl⟩
            failedT := T.failedT
            undecided := T.undecided }
      | false =>
        cases h
        exact ⟨x,
          { voc := T.voc, functions := T.functions, deg := T.deg, disc := T.disc, num := T.num, attempts := T.attempts
            transitions := T.transitions, failedA := T.failedA, failedT := T.failedT
            undecided := fun u hu => by
              rcases List.mem_append.mp hu with hu | hu
              · exact T.undecided u hu
              · rw [List.mem_singleton.mp hu]; exact ⟨o, ho, hn, hf, rfl⟩ }⟩

theorem handleAll_taught {cfg : ONumCfg K} {read : Reader K} {a : String} {V : Finset Lit} {fs : List String} {degree : Nat} {os : List (Obs K)} :
    ∀ {us : List (Finset Lit × List (String × K))} {P P' : Pupil K} {x : Experience K}, Taught cfg read a V fs degree os P x →
      (∀ u ∈ us, ∃ o ∈ os, o.call.name = a ∧ o.ok = false ∧ u = (seen V o.call.ρ o.before.1, read o.call o.before.2)) →
      handleAll cfg P us = .ok P' → ∃ x', Taught cfg read a V fs degree os P' x' := by
  intro us
  induction us with
  | nil => intro P P' x T _ h; cases h; exact ⟨x, T⟩
  | cons u us ih =>
    intro P P' x T hu h
    unfold handleAll at h
    obtain ⟨o, ho, hn, hf, rfl⟩ := hu u (by simp)
    dsimp only at h
    cases hh : P.handleFailure cfg (seen V o.call.ρ o.before.1) (read o.call o.before.2) with
    | error e => rw [hh] at h; cases h
    | ok P1 =>
      rw [hh] at h
      obtain ⟨x1, T1⟩ := failure_taught T ho hn hf hh
      exact ih T1 (fun u hu' => hu u (List.mem_cons_of_mem _ hu')) h

theorem eliminate_taught {cfg : ONumCfg K} {read : Reader K} {a : String} {V : Finset Lit} {fs : List String} {degree : Nat} {os : List (Obs K)}
    {P P' : Pupil K} {x : Experience K} (T : Taught cfg read a V fs degree os P x) (h : P.eliminate cfg = .ok P') :
    ∃ x', Taught cfg read a V fs degree os P' x' := by
  unfold Pupil.eliminate at h
  refine handleAll_taught (P := { P with undecided := [] }) (x := x) ?_ ?_ h
  · exact { voc := T.voc, functions := T.functions, deg := T.deg, disc := T.disc, num := T.num, attempts := T.attempts
            transitions := T.transitions, failedA := T.failedA, failedT := T.failedT, undecided := by simp }
  · exact fun u hu => T.undecided u (List.mem_reverse.mp hu)

/-- Transitions of other actions, and more transitions, do not change what is known. -/
theorem taught_other {cfg : ONumCfg K} {read : Reader K} {a : String} {V : Finset Lit} {fs : List String} {degree : Nat} {os : List (Obs K)}
    {P : Pupil K} {x : Experience K} (T : Taught cfg read a V fs degree os P x) {o : Obs K} (hn : o.call.name ≠ a ∨ o.ok = false) :
    Taught cfg read a V fs degree (os ++ [o]) P x := by
  have e : successesAt a (os ++ [o]) = successesAt a os := by
    unfold successesAt
    rw [List.filter_append]
    rcases hn with hn | hn <;> simp [hn]
  exact
    { voc := T.voc, functions := T.functions, deg := T.deg, disc := T.disc, num := T.num
      attempts := by rw [e]; exact T.attempts
      transitions := by rw [e]; exact T.transitions
      failedA := fun b hb hk => by
        obtain ⟨o', h1, h2⟩ := T.failedA b hb hk
        exact ⟨o', List.mem_append_left _ h1, h2⟩
      failedT := fun b hb hk => by
        obtain ⟨o', h1, h2⟩ := T.failedT b hb hk
        exact ⟨o', List.mem_append_left _ h1, h2⟩
      undecided := fun b hb => by
        obtain ⟨o', h1, h2⟩ := T.undecided b hb
        exact ⟨o', List.mem_append_left _ h1, h2⟩ }

theorem learn_taught {cfg : ONumCfg K} {read : Reader K} {a : String} {V : Finset Lit} {fs : List String} {degree : Nat} {os : List (Obs K)}
    {P P' : Pupil K} {x : Experience K} (T : Taught cfg read a V fs degree os P x) {o : Obs K} (hn : o.call.name = a)
    (h : P.learn cfg read o = .ok P') : ∃ x', Taught cfg read a V fs degree (os ++ [o]) P' x' := by
  have hsup : P.disc.superset = V := by rw [T.disc]; exact learned_superset
  unfold Pupil.learn at h
  dsimp only at h
  rw [hsup] at h
  by_cases hok : o.ok = true
  · rw [if_pos hok] at h
    by_cases hq : (P.num.add cfg ⟨read o.call o.before.2, read o.call o.after.2, true⟩).2 = true
    · rw [if_pos hq] at h; cases h
    · rw [if_neg hq] at h
      cases h
      have e : successesAt a (os ++ [o]) = successesAt a os ++ [o] := by
        unfold successesAt
        rw [List.filter_append]
        simp [hn, hok]
      refine ⟨{ x with attempts := x.attempts ++ [attemptOf o], transitions := x.transitions ++ [transitionOf read o] }, ?_⟩
      have ht : transitionOf read o = ⟨read o.call o.before.2, read o.call o.after.2, true⟩ := by unfold transitionOf; rw [hok]
      exact
        { voc := T.voc, functions := T.functions, deg := T.deg
          disc := by
            dsimp only
            rw [learned_snoc, T.disc]
            show _ = (learned V x.attempts).add (seen V o.call.ρ o.before.1) (seen V o.call.ρ o.after.1) o.ok
            rw [hok]
          num := by
            show onumLearned cfg fs degree (x.transitions ++ [transitionOf read o]) = _
            rw [ht]
            exact onum_snoc T.num (by simpa using hq)
          attempts := by rw [List.filter_append, T.attempts, e]; simp [attemptOf, hok]
          transitions := by rw [List.filter_append, T.transitions, e]; simp [transitionOf, hok]
          failedA := fun b hb hk => by
            rcases List.mem_append.mp hb with hb | hb
            · obtain ⟨o', h1, h2⟩ := T.failedA b hb hk
              exact ⟨o', List.mem_append_left _ h1, h2⟩
            · rw [List.mem_singleton.mp hb] at hk
              unfold attemptOf at hk
              dsimp only at hk
              rw [hok] at hk; cases hk
          failedT := fun b hb hk => by
            rcases List.mem_append.mp hb with hb | hb
            · obtain ⟨o', h1, h2⟩ := T.failedT b hb hk
              exact ⟨o', List.mem_append_left _ h1, h2⟩
            · rw [List.mem_singleton.mp hb] at hk
              unfold transitionOf at hk
              dsimp only at hk
              rw [hok] at hk; cases hk
          undecided := fun b hb => by
            obtain ⟨o', h1, h2⟩ := T.undecided b hb
            exact ⟨o', List.mem_append_left _ h1, h2⟩ }
  · rw [if_neg hok] at h
    have hf : o.ok = false := by simpa using hok
    exact failure_taught (taught_other T (Or.inr hf)) (o := o) (by simp) hn hf h

/-- All actions of the class are taught with the given transitions. -/
structure ClassOK (cfg : ONumCfg K) (read : Reader K) (names : List String) (V : String → Finset Lit) (fns : String → List String) (degree : Nat)
    (os : List (Obs K)) (D : Class K) : Prop where
  keys : D.map Prod.fst = names
  each : ∀ a P, D.lookup a = some P → ∃ x, Taught cfg read a (V a) (fns a) degree os P x

theorem setPupil_keys (D : Class K) (a : String) (P : Pupil K) : (setPupil D a P).map Prod.fst = D.map Prod.fst := by
  unfold setPupil
  rw [List.map_map]
  refine List.map_congr_left fun p _ => ?_
  by_cases h : p.1 = a <;> simp [h]

theorem setPupil_lookup (D : Class K) (a b : String) (P : Pupil K) :
    (setPupil D a P).lookup b = if b = a then (D.lookup a).map fun _ => P else D.lookup b := by
  induction D with
  | nil => unfold setPupil; simp
  | cons p D ih =>
    unfold setPupil at *
    rw [List.map_cons]
    obtain ⟨k, Q⟩ := p
    by_cases hk : k = a
    · subst hk
      rw [if_pos rfl, List.lookup_cons, List.lookup_cons]
      by_cases hb : b = k
      · subst hb; simp
      · rw [if_neg hb] at *
        have : (b == k) = false := by simpa using hb
        simp only [List.lookup_cons, this]
        exact ih
    · rw [if_neg (by simpa using hk), List.lookup_cons, List.lookup_cons, List.lookup_cons]
      by_cases hb : b = a
      · subst hb
        have : (b == k) = false := by simpa using Ne.symm hk
        rw [this]
        dsimp only
        rw [ih, if_pos rfl]
      · rw [if_neg hb] at *
        rw [ih]

theorem learnObs_ok {cfg : ONumCfg K} {read : Reader K} {names : List String} {V : String → Finset Lit} {fns : String → List String} {degree : Nat}
    {os : List (Obs K)} {D D' : Class K} (C : ClassOK cfg read names V fns degree os D) {o : Obs K} (h : learnObs cfg read D o = .ok D') :
    ClassOK cfg read names V fns degree (os ++ [o]) D' := by
  unfold learnObs at h
  cases hl : D.lookup o.call.name with
  | none => rw [hl] at h; cases h
  | some P =>
    rw [hl] at h
    dsimp only at h
    cases hp : P.learn cfg read o with
    | error e => rw [hp] at h; cases h
    | ok P' =>
      rw [hp] at h
      cases h
      refine ⟨by rw [setPupil_keys]; exact C.keys, fun a Q hQ => ?_⟩
      rw [setPupil_lookup] at hQ
      by_cases ha : a = o.call.name
      · rw [if_pos ha, hl] at hQ
        cases hQ
        obtain ⟨x, T⟩ := C.each _ P hl
        rw [ha]
        exact learn_taught T rfl hp
      · rw [if_neg ha] at hQ
        obtain ⟨x, T⟩ := C.each a Q hQ
        exact ⟨x, taught_other T (Or.inl (Ne.symm ha))⟩

theorem learnSeq_ok {cfg : ONumCfg K} {read : Reader K} {names : List String} {V : String → Finset Lit} {fns : String → List String} {degree : Nat} :
    ∀ {ts os : List (Obs K)} {D D' : Class K}, ClassOK cfg read names V fns degree os D → learnSeq cfg read D ts = .ok D' →
      ClassOK cfg read names V fns degree (os ++ ts) D' := by
  intro ts
  induction ts with
  | nil => intro os D D' C h; cases h; simpa using C
  | cons t ts ih =>
    intro os D D' C h
    unfold learnSeq at h
    cases hl : learnObs cfg read D t with
    | error e => rw [hl] at h; cases h
    | ok D1 =>
      rw [hl] at h
      have := ih (learnObs_ok C hl) h
      rwa [List.append_assoc] at this

theorem eliminateSeq_ok {cfg : ONumCfg K} {read : Reader K} {names : List String} {V : String → Finset Lit} {fns : String → List String} {degree : Nat}
    {os : List (Obs K)} : ∀ {as : List String} {D D' : Class K}, ClassOK cfg read names V fns degree os D → eliminateSeq cfg D as = .ok D' →
      ClassOK cfg read names V fns degree os D' := by
  intro as
  induction as with
  | nil => intro D D' C h; cases h; exact C
  | cons a as ih =>
    intro D D' C h
    unfold eliminateSeq at h
    cases hl : D.lookup a with
    | none => rw [hl] at h; cases h
    | some P =>
      rw [hl] at h
      dsimp only at h
      cases hp : P.eliminate cfg with
      | error e => rw [hp] at h; cases h
      | ok P' =>
        rw [hp] at h
        refine ih ⟨by rw [setPupil_keys]; exact C.keys, fun b Q hQ => ?_⟩ h
        rw [setPupil_lookup] at hQ
        by_cases hb : b = a
        · rw [if_pos hb, hl] at hQ
          cases hQ
          obtain ⟨x, T⟩ := C.each _ P hl
          rw [hb]
          exact eliminate_taught T hp
        · rw [if_neg hb] at hQ
          exact C.each b Q hQ

theorem lesson_ok {cfg : ONumCfg K} {read : Reader K} {names : List String} {V : String → Finset Lit} {fns : String → List String} {degree : Nat}
    {os : List (Obs K)} {D D' : Class K} {l : Model.OnlineTraining.Lesson K} (C : ClassOK cfg read names V fns degree os D)
    (h : learnLesson cfg read names D l = .ok D') : ClassOK cfg read names V fns degree (os ++ shown l) D' := by
  cases l with
  | trace t =>
    unfold learnLesson at h
    dsimp only at h
    cases hl : learnSeq cfg read D (t.filter fun o => !containsDuplicates o.params) with
    | error e => rw [hl] at h; cases h
    | ok D1 => rw [hl] at h; exact eliminateSeq_ok (learnSeq_ok C hl) h
  | explored t elim =>
    unfold learnLesson at h
    dsimp only at h
    cases hl : learnSeq cfg read D t with
    | error e => rw [hl] at h; cases h
    | ok D1 =>
      rw [hl] at h
      dsimp only at h
      by_cases he : elim = true
      · rw [if_pos he] at h; exact eliminateSeq_ok (learnSeq_ok C hl) h
      · rw [if_neg he] at h; cases h; exact learnSeq_ok C hl

theorem lessons_ok {cfg : ONumCfg K} {read : Reader K} {names : List String} {V : String → Finset Lit} {fns : String → List String} {degree : Nat} :
    ∀ {ls : List (Model.OnlineTraining.Lesson K)} {os : List (Obs K)} {D D' : Class K}, ClassOK cfg read names V fns degree os D →
      learnLessons cfg read names D ls = .ok D' → ClassOK cfg read names V fns degree (os ++ ls.flatMap shown) D' := by
  intro ls
  induction ls with
  | nil => intro os D D' C h; cases h; simpa using C
  | cons l ls ih =>
    intro os D D' C h
    unfold learnLessons at h
    cases hl : learnLesson cfg read names D l with
    | error e => rw [hl] at h; cases h
    | ok D1 =>
      rw [hl] at h
      have := ih (lesson_ok C hl) h
      rwa [List.append_assoc, ← List.flatMap_cons] at this

theorem lookup_new {names : List String} {V : String → Finset Lit} {fns : String → List String} {degree : Nat} {a : String} {P : Pupil K}
    (h : (newClass names V fns degree).lookup a = some P) : P = Pupil.new (V a) (fns a) degree := by
  unfold newClass at h
  induction names with
  | nil => simp at h
  | cons n ns ih =>
    rw [List.map_cons, List.lookup_cons] at h
    by_cases hn : a = n
    · subst hn; simp at h; exact h.symm
    · have : (a == n) = false := by simpa using hn
      rw [this] at h
      exact ih h

theorem new_ok (cfg : ONumCfg K) (read : Reader K) (names : List String) (V : String → Finset Lit) (fns : String → List String) (degree : Nat) :
    ClassOK cfg read names V fns degree [] (newClass names V fns degree) := by
  refine ⟨by unfold newClass; rw [List.map_map]; exact List.map_id _, fun a P hP => ?_⟩
  rw [lookup_new hP]
  exact ⟨⟨V a, [], fns a, degree, []⟩, ⟨rfl, rfl, rfl, rfl, rfl, rfl, rfl, by simp, by simp, by simp [Pupil.new]⟩⟩

theorem lookup_map {α β : Type} (f : α → β) (D : List (String × α)) (a : String) : (D.map fun p => (p.1, f p.2)).lookup a = (D.lookup a).map f := by
  induction D with
  | nil => rfl
  | cons p D ih =>
    rw [List.map_cons, List.lookup_cons, List.lookup_cons, ih]
    cases a == p.1 <;> rfl

/-- **C110, what was learned.** After any lessons that raised no exception, every action has its learners, and they know exactly the
successes that were shown, in order, each with its states; every failure that they know was shown, and no other action has any
influence. -/
theorem C110_learned {cfg : ONumCfg K} {read : Reader K} {names : List String} {V : String → Finset Lit} {fns : String → List String} {degree : Nat}
    {ls : List (Model.OnlineTraining.Lesson K)} {D : Class K} (h : learnLessons cfg read names (newClass names V fns degree) ls = .ok D)
    {a : String} (ha : a ∈ names) :
    ∃ x : Experience K, x.voc = V a ∧ x.functions = fns a ∧ x.degree = degree ∧ Knows cfg (discOf D) (numOf D) a x ∧
      x.attempts.filter (·.ok) = (successesAt a (ls.flatMap shown)).map attemptOf ∧
      x.transitions.filter (·.ok) = (successesAt a (ls.flatMap shown)).map (transitionOf read) ∧
      (∀ b ∈ x.attempts, b.ok = false → ∃ o ∈ ls.flatMap shown, o.call.name = a ∧ o.ok = false ∧ b = attemptOf o) ∧
      (∀ t ∈ x.transitions, t.ok = false → ∃ o ∈ ls.flatMap shown, o.call.name = a ∧ o.ok = false ∧ t.pre = read o.call o.before.2) := by
  have C := lessons_ok (new_ok cfg read names V fns degree) h
  rw [List.nil_append] at C
  have : ∃ P, D.lookup a = some P := by
    rw [← C.keys] at ha
    obtain ⟨p, hp, rfl⟩ := List.mem_map.mp ha
    cases hl : D.lookup p.1 with
    | some P => exact ⟨P, rfl⟩
    | none => exact absurd (List.lookup_eq_none_iff.mp hl p hp) (by simp)
  obtain ⟨P, hP⟩ := this
  obtain ⟨x, T⟩ := C.each a P hP
  refine ⟨x, T.voc, T.functions, T.deg, ⟨?_, P.num, ?_, ?_⟩, T.attempts, T.transitions, T.failedA, T.failedT⟩
  · unfold discOf
    rw [lookup_map, hP, T.voc, ← T.disc]
    rfl
  · unfold numOf
    rw [lookup_map, hP]
    rfl
  · rw [T.functions, T.deg]; exact T.num

/-- The setting of the learner: the true domain, and lessons made of honest transitions with proper calls; nothing is assumed about
unsuccessful ones except that the functions of the action have values. -/
structure Setting (T : String → HybridAction K) (read : Reader K) (names : List String) (V : String → Finset Lit) (fns : String → List String)
    (degree : Nat) (ls : List (Model.OnlineTraining.Lesson K)) : Prop where
  functions : ∀ a ∈ names, fns a = (T a).functions ∧ (fns a).Nodup ∧ fns a ≠ [] ∧ "(dummy)" ∉ fns a
  voc : ∀ a ∈ names, ∃ l ∈ V a, l.neg ∈ V a
  pre : ∀ a ∈ names, (T a).pre ⊆ V a
  eff : ∀ a ∈ names, (T a).eff ⊆ V a ∧ ∀ l ∈ (T a).eff, l.neg ∉ (T a).eff
  convex : ∀ a ∈ names, ∀ (pts : List (List String → K)) (v : List String → K), (∀ r ∈ pts, (T a).region r) →
    InHull (createMonomials (fns a) degree) pts v → (T a).region v
  affine : ∀ a ∈ names, ∀ f ∈ fns a, ∀ c ∈ ((T a).num f).cols, c ∈ createMonomials (fns a) degree
  reads : ∀ a ∈ names, ∀ c : HybridCall, c.name = a → ∀ w, ((read c w).map Prod.fst).Nodup ∧ ∀ f ∈ fns a, (read c w).lookup f = some (w (c.fluent f))
  honest : ∀ o ∈ ls.flatMap shown, o.ok = true → trueStep T o.before o.call o.after
  proper : ∀ o ∈ ls.flatMap shown, o.ok = true → InjectiveOn (V o.call.name) o.call.ρ ∧
    ∀ f ∈ fns o.call.name, ∀ g ∈ fns o.call.name, o.call.fluent f = o.call.fluent g → f = g

/-- The numeric libraries behave on the successes of an action as their contracts say. -/
def ExactOn (cfg : ONumCfg K) (fs : List String) (degree : Nat) (ts : List (Transition K)) : Prop := Exact cfg ⟨∅, [], fs, degree, ts⟩

theorem mem_filter_ok {α : Type} {f : α → Bool} {l l' : List α} (h : l.filter f = l') {x : α} (hx : x ∈ l) (hf : f x = true) : x ∈ l' := by
  rw [← h]; exact List.mem_filter.mpr ⟨hx, hf⟩

theorem mem_successesAt {a : String} {os : List (Obs K)} {o : Obs K} : o ∈ successesAt a os ↔ o ∈ os ∧ o.call.name = a ∧ o.ok = true := by
  unfold successesAt
  rw [List.mem_filter]
  simp

theorem assign_listed {fs : List String} {fl : String → String} (hinj : ∀ f ∈ fs, ∀ g ∈ fs, fl f = fl g → f = g) (new w : String → K) {f : String}
    (hf : f ∈ fs) : assignAll fs fl new w (fl f) = new f := by
  unfold assignAll
  cases h : fs.find? (fun g => fl g == fl f) with
  | none => exact absurd (List.find?_eq_none.mp h f hf) (by simp)
  | some g =>
    have h1 := List.mem_of_find?_eq_some h
    have h2 : fl g = fl f := by simpa using List.find?_some h
    rw [hinj g h1 f hf h2]

theorem produced_of {T : String → HybridAction K} {read : Reader K} {names : List String} {V : String → Finset Lit} {fns : String → List String}
    {degree : Nat} {ls : List (Model.OnlineTraining.Lesson K)} (S : Setting T read names V fns degree ls) {a : String} (ha : a ∈ names) {x : Experience K}
    (hv : x.voc = V a) (hf : x.functions = fns a) (hd : x.degree = degree)
    (hat : x.attempts.filter (·.ok) = (successesAt a (ls.flatMap shown)).map attemptOf)
    (htr : x.transitions.filter (·.ok) = (successesAt a (ls.flatMap shown)).map (transitionOf read))
    (hft : ∀ t ∈ x.transitions, t.ok = false → ∃ o ∈ ls.flatMap shown, o.call.name = a ∧ o.ok = false ∧ t.pre = read o.call o.before.2) :
    Produced (T a) x := by
  obtain ⟨f1, f2, f3, f4⟩ := S.functions a ha
  -- a success as the two learners see it
  have hA : ∀ b ∈ x.attempts, b.ok = true → ∃ o ∈ ls.flatMap shown, o.call.name = a ∧ o.ok = true ∧ b = attemptOf o := by
    intro b hb hk
    obtain ⟨o, ho, rfl⟩ := List.mem_map.mp (mem_filter_ok hat hb hk)
    obtain ⟨o1, o2, o3⟩ := mem_successesAt.mp ho
    exact ⟨o, o1, o2, o3, rfl⟩
  have hB : ∀ t ∈ x.transitions, t.ok = true → ∃ o ∈ ls.flatMap shown, o.call.name = a ∧ o.ok = true ∧ t = transitionOf read o := by
    intro b hb hk
    obtain ⟨o, ho, rfl⟩ := List.mem_map.mp (mem_filter_ok htr hb hk)
    obtain ⟨o1, o2, o3⟩ := mem_successesAt.mp ho
    exact ⟨o, o1, o2, o3, rfl⟩
  have hread : ∀ c : HybridCall, c.name = a → ∀ w, ∀ f ∈ fns a, valOf (read c w) f = w (c.fluent f) := by
    intro c hc w f hf'
    unfold valOf
    rw [(S.reads a ha c hc w).2 f hf']
    rfl
  have hkeys : ∀ c : HybridCall, c.name = a → ∀ w, ∀ f ∈ fns a, f ∈ (read c w).map Prod.fst := by
    intro c hc w f hf'
    have := (S.reads a ha c hc w).2 f hf'
    exact List.mem_map.mpr ⟨_, lookup_mem this, rfl⟩
  have hmono : ∀ c : HybridCall, c.name = a → ∀ w, ∀ m ∈ createMonomials (fns a) degree, monoVal (valOf (read c w)) m = monoVal (fun f => w (c.fluent f)) m := by
    intro c hc w m hm
    unfold monoVal
    congr 1
    exact List.map_congr_left fun f hf' => hread c hc w f ((mono_names f2 hm).2 f hf')
  refine
    { functions := by rw [hf, f1]
      pre := by rw [hv]; exact S.pre a ha
      held := ?_
      eff := ⟨by rw [hv]; exact (S.eff a ha).1, (S.eff a ha).2, ?_, ?_⟩
      full := ⟨by rw [hf]; exact f2, by rw [hf]; exact f3, by rw [hf]; exact f4, ?_, ?_⟩
      region := ?_
      convex := by rw [hf, hd]; exact S.convex a ha
      cols := by rw [hf, hd]; exact S.affine a ha
      next := ?_
      both := ?_ }
  · intro b hb hk
    obtain ⟨o, o1, o2, o3, rfl⟩ := hA b hb hk
    have := (S.honest o o1 o3).1
    rw [o2] at this
    exact this
  · intro b hb hk
    obtain ⟨o, o1, o2, o3, rfl⟩ := hA b hb hk
    have := (S.honest o o1 o3).2.2
    rw [o2] at this
    exact congrArg Prod.fst this
  · intro b hb hk
    obtain ⟨o, o1, o2, o3, rfl⟩ := hA b hb hk
    have := (S.proper o o1 o3).1
    rw [o2] at this
    rw [hv]
    exact this
  · intro t ht f hf'
    rw [hf] at hf'
    cases hk : t.ok with
    | true =>
      obtain ⟨o, o1, o2, o3, rfl⟩ := hB t ht hk
      exact hkeys _ o2 _ f hf'
    | false =>
      obtain ⟨o, o1, o2, o3, o4⟩ := hft t ht hk
      rw [o4]
      exact hkeys _ o2 _ f hf'
  · intro t ht hk
    obtain ⟨o, o1, o2, o3, rfl⟩ := hB t ht hk
    rw [hf]
    exact ⟨(S.reads a ha o.call o2 o.after.2).1, fun f hf' => hkeys _ o2 _ f hf'⟩
  · intro t ht hk
    obtain ⟨o, o1, o2, o3, rfl⟩ := hB t ht hk
    have := (S.honest o o1 o3).2.1
    rw [o2] at this
    refine S.convex a ha [monoVal fun f => o.before.2 (o.call.fluent f)] _ (by simpa using this) ?_
    refine inHull_agree (v := monoVal fun f => o.before.2 (o.call.fluent f)) ?_ (inHull_row (List.mem_singleton.mpr rfl))
    intro m hm
    exact (hmono o.call o2 _ m hm).symm
  · intro t ht hk f hf'
    obtain ⟨o, o1, o2, o3, rfl⟩ := hB t ht hk
    rw [hf] at hf'
    unfold transitionOf
    dsimp only
    rw [hread _ o2 _ f hf']
    have h2 := congrArg Prod.snd (S.honest o o1 o3).2.2
    have hinj := (S.proper o o1 o3).2
    rw [o2] at h2 hinj
    rw [h2]
    dsimp only
    rw [← f1, assign_listed hinj _ _ hf']
    exact affine_congr' fun c hc => (hmono o.call o2 _ c (S.affine a ha f hf' c hc)).symm
  · by_cases hs : successesAt a (ls.flatMap shown) = []
    · right
      refine ⟨fun b hb => ?_, by rw [hv]; exact S.voc a ha⟩
      cases hk : b.ok with
      | false => rfl
      | true =>
        have := mem_filter_ok hat hb hk
        rw [hs] at this
        simp at this
    · left
      obtain ⟨o, ho⟩ := List.exists_mem_of_ne_nil _ hs
      have : transitionOf read o ∈ x.transitions.filter (·.ok) := by rw [htr]; exact List.mem_map.mpr ⟨o, ho, rfl⟩
      exact ⟨_, (List.mem_filter.mp this).1, (List.mem_filter.mp this).2⟩

theorem exact_of {cfg : ONumCfg K} {x : Experience K} {fs : List String} {degree : Nat} {ts : List (Transition K)} (hx : ExactOn cfg fs degree ts)
    (hok : ∀ t ∈ ts, t.ok = true) (hf : x.functions = fs) (hd : x.degree = degree) (htr : x.transitions.filter (·.ok) = ts) : Exact cfg x := by
  have hts : ts.filter (·.ok) = ts := List.filter_eq_self.mpr hok
  obtain ⟨h1, h2⟩ := hx
  dsimp only at h1 h2
  unfold successPoints at h1
  unfold transitionRows at h2
  rw [hts] at h1 h2
  refine ⟨?_, ?_⟩
  · rintro ⟨t, ht, hk⟩
    rw [hf, hd]
    unfold successPoints
    rw [htr]
    exact h1 ⟨t, mem_filter_ok htr ht hk, hk⟩
  · rw [hf, hd]
    unfold transitionRows
    rw [htr]
    exact h2

/-- **C110, from lessons to plans.** Let the lessons (traces and explorations, in any number and order) consist of transitions whose
successes were produced by the true domain, and let neither the training nor the construction raise. Then every plan of the safe
domain is a plan of the true domain, and leads to the same state. The failures, the way they are classified, and the number and place of
the eliminations do not matter. -/
theorem C110_plan {cfg : ONumCfg K} {add : Cond → Cond → Cond} {ord : LitOrd} (hadd : AddOK add) (ho : EnumNodup ord) (hplain : cfg.plain = true)
    (hdig : cfg.digits ≤ 10) (hR : RegContract cfg.reg) {T : String → HybridAction K} {read : Reader K} {names : List String} {V : String → Finset Lit}
    {fns : String → List String} {degree : Nat} {ls : List (Model.OnlineTraining.Lesson K)} (S : Setting T read names V fns degree ls)
    (hx : ∀ a ∈ names, ExactOn cfg (fns a) degree ((successesAt a (ls.flatMap shown)).map (transitionOf read)))
    {D : Class K} (htrain : learnLessons cfg read names (newClass names V fns degree) ls = .ok D)
    {acts : List (String × OAction K)} (h : constructSafe cfg add ord names (discOf D) (numOf D) = .ok acts)
    (hsd : ∀ a A, (a, A) ∈ acts → ∀ e ∈ A.numEff, e.op ≠ .scaleDown)
    {plan : List HybridCall} (hc : ∀ c ∈ plan, InjectiveOn (V c.name) c.ρ ∧ ∀ f ∈ fns c.name, ∀ g ∈ fns c.name, c.fluent f = c.fluent g → f = g)
    {s s' : HybridState K} (hs : Leads (builtStep acts) s plan s') : Leads (trueStep T) s plan s' := by
  have key : ∀ a ∈ names, ∃ x : Experience K, x.voc = V a ∧ x.functions = fns a ∧ Knows cfg (discOf D) (numOf D) a x ∧ Produced (T a) x ∧ Exact cfg x := by
    intro a ha
    obtain ⟨x, h1, h2, h3, h4, h5, h6, _, h8⟩ := C110_learned htrain ha
    refine ⟨x, h1, h2, h4, produced_of S ha h1 h2 h3 h5 h6 h8, exact_of (hx a ha) ?_ h2 h3 h6⟩
    intro t ht
    obtain ⟨o, ho', rfl⟩ := List.mem_map.mp ht
    exact (mem_successesAt.mp ho').2.2
  classical
  let X : String → Experience K := fun a => if ha : a ∈ names then (key a ha).choose else ⟨∅, [], [], 0, []⟩
  have hX : ∀ a, a ∈ names → (X a).voc = V a ∧ (X a).functions = fns a ∧ Knows cfg (discOf D) (numOf D) a (X a) ∧ Produced (T a) (X a) ∧ Exact cfg (X a) := by
    intro a ha
    have := (key a ha).choose_spec
    have e : X a = (key a ha).choose := dif_pos ha
    rw [e]
    exact this
  have hmem : ∀ {plan : List HybridCall} {s : HybridState K}, Leads (builtStep acts) s plan s' → ∀ c ∈ plan, c.name ∈ names := by
    intro plan
    induction plan with
    | nil => intro _ _ c hc; simp at hc
    | cons d ds ih =>
      rintro s ⟨m, ⟨A, hA, _⟩, h2⟩ c hc'
      rcases List.mem_cons.mp hc' with rfl | hc'
      · rw [← (build_ok.mp h).1]
        exact List.mem_map.mpr ⟨_, hA, rfl⟩
      · exact ih h2 c hc'
  refine C109_plan (X := X) hadd ho hplain hdig hR h hsd (fun a ha => (hX a ha).2.2.1) (fun a ha => (hX a ha).2.2.2.1) (fun a ha => (hX a ha).2.2.2.2) ?_ hs
  intro c hc'
  obtain ⟨e1, e2, _⟩ := hX c.name (hmem hs c hc')
  refine ⟨by rw [e1]; exact (hc c hc').1, by rw [e2]; exact (hc c hc').2⟩

/-- The parts of a numeric learner that its safe model uses. -/
def core (st : ONum K) : List String × List (List String) × IncHull K (List String) × Frame (List String) K × Frame (List String) K :=
  (st.functions, st.monomials, st.hull, st.prev, st.next)

theorem core_safe {cfg : ONumCfg K} {s t : ONum K} (h : core s = core t) : s.safeModel cfg = t.safeModel cfg := by
  unfold core at h
  simp only [Prod.mk.injEq] at h
  obtain ⟨_, _, h3, h4, h5⟩ := h
  unfold ONum.safeModel ONum.effects
  rw [h3, h4, h5]

theorem core_failed {cfg : ONumCfg K} {s : ONum K} {t : Transition K} (ht : t.ok = false) : core (s.add cfg t).1 = core s := by
  unfold ONum.add core
  simp [ht]

theorem core_add {cfg : ONumCfg K} {s s' : ONum K} (t : Transition K) (h : core s = core s') :
    core (s.add cfg t).1 = core (s'.add cfg t).1 := by
  unfold core at h
  simp only [Prod.mk.injEq] at h
  obtain ⟨h1, h2, h3, h4, h5⟩ := h
  unfold ONum.add core
  dsimp only
  rw [h1, h2, h3, h4, h5]
  cases t.ok with
  | false => simp [h1, h2, h3, h4, h5]
  | true =>
    simp only [if_true]
    by_cases hq : (s'.hull.add cfg.lib cfg.digits cfg.margin cfg.plain polyExp ((groundMonomials s'.monomials t.pre).map Prod.fst)
      (pointFn (groundMonomials s'.monomials t.pre))).2 = true
    · simp only [hq, if_true, h1, h2, h4, h5]
    · simp only [hq, h1, h2]
      simp

theorem core_run {cfg : ONumCfg K} : ∀ {ts : List (Transition K)} {s s' : ONum K} {b b' : Bool}, core s = core s' →
    core (ts.foldl (fun s t => let r := s.1.add cfg t; (r.1, s.2 || r.2)) (s, b)).1 =
      core ((ts.filter (·.ok)).foldl (fun s t => let r := s.1.add cfg t; (r.1, s.2 || r.2)) (s', b')).1 := by
  intro ts
  induction ts with
  | nil => intro s s' b b' h; exact h
  | cons t ts ih =>
    intro s s' b b' h
    rw [List.foldl_cons, List.filter_cons]
    cases ht : t.ok with
    | true => exact ih (core_add t h)
    | false => exact ih ((core_failed ht).trans h)

/-- The parts of a discrete learner that its safe model uses. -/
def coreD (L : DiscreteOnline) : Finset Lit × Finset Lit × Finset Lit × Finset Lit := (L.superset, L.cannotPre, L.cannotEff, L.mustEff)

theorem coreD_failed (L : DiscreteOnline) (pre post : Finset Lit) : coreD (L.add pre post false) = coreD L := by
  unfold DiscreteOnline.add DiscreteOnline.neg coreD
  dsimp only
  rw [if_neg (by decide)]
  split_ifs <;> rfl

theorem coreD_add {L L' : DiscreteOnline} (h : coreD L = coreD L') (pre post : Finset Lit) : coreD (L.add pre post true) = coreD (L'.add pre post true) := by
  unfold coreD at h
  simp only [Prod.mk.injEq] at h
  obtain ⟨h1, h2, h3, h4⟩ := h
  simp only [DiscreteOnline.add, coreD, if_true, DiscreteOnline.posPost, DiscreteOnline.posPre, h1, h2, h3, h4]

theorem coreD_feed : ∀ {h : List Attempt} {L L' : DiscreteOnline}, coreD L = coreD L' → coreD (L.feed h) = coreD (L'.feed (h.filter (·.ok))) := by
  intro h
  induction h with
  | nil => intro L L' e; exact e
  | cons b h ih =>
    intro L L' e
    have e1 : L.superset = L'.superset := congrArg Prod.fst e
    unfold DiscreteOnline.feed at *
    rw [List.foldl_cons, List.filter_cons]
    cases hb : b.ok with
    | true =>
      rw [if_pos rfl, List.foldl_cons, hb, e1]
      exact ih (coreD_add e _ _)
    | false => exact ih ((coreD_failed _ _ _).trans e)

/-- **C110, the failures do not matter.** If two series of lessons show the same successes of every action, in the same order, then their
safe domains are equal: the failed attempts, the ones left undecided and the division into lessons have no influence. -/
theorem C110_failures {cfg : ONumCfg K} {add : Cond → Cond → Cond} {ord : LitOrd} {read : Reader K} {names : List String} {V : String → Finset Lit}
    {fns : String → List String} {degree : Nat} {ls ls' : List (Model.OnlineTraining.Lesson K)} {D D' : Class K}
    (h : learnLessons cfg read names (newClass names V fns degree) ls = .ok D) (h' : learnLessons cfg read names (newClass names V fns degree) ls' = .ok D')
    (hs : ∀ a ∈ names, successesAt a (ls.flatMap shown) = successesAt a (ls'.flatMap shown)) :
    constructSafe cfg add ord names (discOf D) (numOf D) = constructSafe cfg add ord names (discOf D') (numOf D') := by
  have one : ∀ a ∈ names, buildOne add (safeDiscrete add ord) (ONum.safeModel cfg) (discOf D) (numOf D) a =
      buildOne add (safeDiscrete add ord) (ONum.safeModel cfg) (discOf D') (numOf D') a := by
    intro a ha
    obtain ⟨x, v1, f1, d1, ⟨k1, N1, l1, r1⟩, a1, t1, _⟩ := C110_learned h ha
    obtain ⟨y, v2, f2, d2, ⟨k2, N2, l2, r2⟩, a2, t2, _⟩ := C110_learned h' ha
    rw [hs a ha, ← a2] at a1
    rw [hs a ha, ← t2] at t1
    have eD : coreD (learned x.voc x.attempts) = coreD (learned y.voc y.attempts) := by
      unfold learned
      rw [v1, v2, coreD_feed (L' := .init (V a)) rfl, coreD_feed (h := y.attempts) (L' := .init (V a)) rfl, a1]
    have eN : core N1 = core N2 := by
      have e1 : N1 = (onumLearned cfg x.functions x.degree x.transitions).1 := by rw [r1]
      have e2 : N2 = (onumLearned cfg y.functions y.degree y.transitions).1 := by rw [r2]
      rw [e1, e2]
      unfold onumLearned ONum.run
      rw [f1, f2, d1, d2, core_run (s' := .new (fns a) degree) (b' := false) rfl, core_run (ts := y.transitions) (s' := .new (fns a) degree) (b' := false) rfl, t1]
    have eS : safeDiscrete add ord (learned x.voc x.attempts) = safeDiscrete add ord (learned y.voc y.attempts) := by
      unfold coreD at eD
      simp only [Prod.mk.injEq] at eD
      unfold safeDiscrete DiscreteOnline.safeModel
      rw [eD.1, eD.2.1, eD.2.2.2]
    unfold buildOne
    rw [k1, k2, l1, l2]
    dsimp only
    rw [core_safe eN, eS]
  unfold constructSafe
  have : ∀ ns : List String, (∀ a ∈ ns, a ∈ names) → build (buildOne add (safeDiscrete add ord) (ONum.safeModel cfg) (discOf D) (numOf D)) ns =
      build (buildOne add (safeDiscrete add ord) (ONum.safeModel cfg) (discOf D') (numOf D')) ns := by
    intro ns
    induction ns with
    | nil => intro _; rfl
    | cons n ns ih =>
      intro hn
      unfold build
      rw [one n (hn n (by simp)), ih fun a ha => hn a (List.mem_cons_of_mem _ ha)]
  exact this names fun _ ha => ha

namespace Case
open OnlineCase Props.OnlineDomain.Case Props.OnlineSafety.Case

def names : List String := ["move"]
def V : String → Finset Lit := fun _ => voc2
def fns : String → List String := fun _ => fs
def read : Reader ℚ := fun c w => [("(fuel ?o)", w (c.fluent "(fuel ?o)"))]

/-- The state after a ready car with `q` units has moved. -/
def moveTo (q : ℚ) : HybridState ℚ := (successor {moved} Props.OnlineDomain.Case.ρ on, assignAll fs call.fluent (fun _ => q - 1) fun _ => q)
def success (q : ℚ) : Obs ℚ := ⟨call, ["car"], (on, fun _ => q), moveTo q, true⟩
def failure (s : State) (q : ℚ) : Obs ℚ := ⟨call, ["car"], (s, fun _ => q), (s, fun _ => q), false⟩

/-- A trace with two moves, a failure without fuel and one with duplicate objects (which is not used); an exploration with a failure that
is first undecided (not ready and without fuel), one of a car that is not ready, and one with too much fuel. -/
def lessons : List (Model.OnlineTraining.Lesson ℚ) :=
  [.trace [success 5, failure on 1, { failure on 4 with params := ["car", "car"] }, success 3],
   .explored [failure ∅ 1, failure ∅ 4, failure on 7] true]

theorem setting : Setting (fun _ => move) read names V fns 0 lessons where
  functions := fun _ _ => ⟨rfl, full.nodup, full.some, full.notDummy⟩
  voc := fun _ _ => ⟨ready, (by decide +kernel : ready ∈ voc2), (by decide +kernel : ready.neg ∈ voc2)⟩
  pre := fun _ _ => produced.pre
  eff := fun _ _ => ⟨produced.eff.1, produced.eff.2⟩
  convex := fun _ _ => produced.convex
  affine := fun _ _ => produced.cols
  reads := by
    intro a _ c _ w
    refine ⟨by simp [read], fun f hf => ?_⟩
    have : f = "(fuel ?o)" := by simpa [fns] using hf
    subst this
    simp [read]
  honest := by
    intro o ho hok
    have : o = success 5 ∨ o = success 3 := by
      have hm : ∀ o ∈ lessons.flatMap shown, o = success 5 ∨ o = success 3 ∨ o.ok = false := by
        simp [lessons, shown, containsDuplicates, success, failure]
      rcases hm o ho with h | h | h
      · exact .inl h
      · exact .inr h
      · rw [h] at hok; cases hok
    have key : ∀ q : ℚ, 2 ≤ q → trueStep (fun _ => move) (success q).before (success q).call (success q).after := by
      intro q hq
      refine ⟨?_, ?_, ?_⟩
      · show applicable {ready} Props.OnlineDomain.Case.ρ on
        decide +kernel
      · show 2 ≤ monoVal (fun _ => q) col
        simpa [monoVal] using hq
      · refine Prod.ext rfl ?_
        show assignAll fs call.fluent (fun _ => q - 1) (fun _ => q) = _
        congr 1
        funext f
        simp [success, move, Affine.value, monoVal]
        ring
    rcases this with rfl | rfl
    · exact key 5 (by norm_num)
    · exact key 3 (by norm_num)
  proper := by
    intro o ho hok
    have : o.call = call := by
      have hm : ∀ o ∈ lessons.flatMap shown, o.call = call := by
        simp [lessons, shown, containsDuplicates, success, failure]
      exact hm o ho
    rw [this]
    exact ⟨proper.1, proper.2⟩

theorem successes_eq : (successesAt "move" (lessons.flatMap shown)).map (transitionOf read) = [attempt 5 4 true, attempt 3 2 true] := by
  have : successesAt "move" (lessons.flatMap shown) = [success 5, success 3] := by
    simp [lessons, shown, containsDuplicates, success, failure, successesAt, call]
  rw [this]
  have e : ∀ q : ℚ, transitionOf read (success q) = attempt q (q - 1) true := by
    intro q
    simp [transitionOf, read, success, moveTo, attempt, assignAll, call]
  simp only [List.map_cons, List.map_nil, e]
  norm_num

theorem exactOn : ∀ a ∈ names, ExactOn cfg (fns a) 0 ((successesAt a (lessons.flatMap shown)).map (transitionOf read)) := by
  intro a ha
  rw [List.mem_singleton.mp ha, successes_eq]
  exact ⟨fun _ => inc, printable⟩

theorem trained : ∃ D P p, learnLessons cfg read names (newClass names V fns 0) lessons = .ok D ∧ D.lookup "move" = some P ∧
    P.num.safeModel cfg = .ok p ∧ p.pre = [⟨.ge, .var "(fuel ?o)", .num 3⟩, ⟨.le, .var "(fuel ?o)", .num 5⟩] ∧
    p.eff = [⟨.decrease, "(fuel ?o)", .num 1⟩] ∧ P.disc.safeModel.1 = {ready, moved.neg} ∧ P.disc.safeModel.2 = {moved} ∧ P.undecided.length = 1 := by
  have h : (match learnLessons cfg read names (newClass names V fns 0) lessons with
    | .ok D => match D.lookup "move" with
      | some P => match P.num.safeModel cfg with
        | .ok p => decide (p.pre = [⟨.ge, .var "(fuel ?o)", .num 3⟩, ⟨.le, .var "(fuel ?o)", .num 5⟩] ∧
            p.eff = [⟨.decrease, "(fuel ?o)", .num 1⟩] ∧ P.disc.safeModel.1 = {ready, moved.neg} ∧ P.disc.safeModel.2 = {moved} ∧ P.undecided.length = 1)
        | .error _ => false
      | none => false
    | .error _ => false) = true := by decide +kernel
  revert h
  cases learnLessons cfg read names (newClass names V fns 0) lessons with
  | error e => intro h; exact absurd h (by simp)
  | ok D =>
    dsimp only
    cases hl : D.lookup "move" with
    | none => intro h; exact absurd h (by simp)
    | some P =>
      dsimp only
      cases hs : P.num.safeModel cfg with
      | error e => intro h; exact absurd h (by simp)
      | ok p => intro h; exact ⟨D, P, p, rfl, hl, hs, of_decide_eq_true h⟩

/-- The lessons end, the safe domain exists, a ready car with 4 units of fuel (never seen) can move in it, and so it can in the true
domain, to the same state. -/
example : ∃ D A, learnLessons cfg read names (newClass names V fns 0) lessons = .ok D ∧
    constructSafe cfg add ord names (discOf D) (numOf D) = .ok [("move", A)] ∧ ∃ s',
      Leads (builtStep [("move", A)]) (on, fun _ => 4) [call] s' ∧ Leads (trueStep fun _ => move) (on, fun _ => 4) [call] s' := by
  obtain ⟨D, P, p, hD, hl, hp, hpre, heff, hd1, hd2, _⟩ := trained
  have e1 : constructSafe cfg add ord names (discOf D) (numOf D) = .ok [("move", buildAction add (safeDiscrete add ord P.disc) p)] := by
    refine build_ok.mpr ⟨rfl, fun q hq => ?_⟩
    rw [List.mem_singleton.mp hq]
    refine buildOne_ok.mpr ⟨P.disc, P.num, p, ?_, ?_, hp, rfl⟩
    · unfold discOf; rw [lookup_map, hl]; rfl
    · unfold numOf; rw [lookup_map, hl]; rfl
  have hacc : Accepts (buildAction add (safeDiscrete add ord P.disc) p) call.ρ on (fun _ => (4 : ℚ)) := by
    refine ⟨?_, ?_⟩
    · unfold buildAction
      dsimp only
      obtain ⟨ks, hk⟩ := safe_node addOK ord P.disc
      rw [hk]
      refine (rebuilt addOK _ _ ks).mpr ?_
      rw [← hk]
      unfold safeDiscrete
      dsimp only
      rw [nodeOf_and addOK (val _ _)]
      simp only [ordOK.mem]
      rw [hd1]
      show ∀ l ∈ ({ready, moved.neg} : Finset Lit), holds on (ground Props.OnlineDomain.Case.ρ l)
      decide +kernel
    · show ∀ q ∈ p.pre, q.holds _
      rw [hpre]
      simp only [List.mem_cons, List.not_mem_nil, or_false, forall_eq_or_imp, forall_eq]
      unfold NCond.holds
      simp only [NExp.eval]
      norm_num
  have hl' : Leads (builtStep [("move", buildAction add (safeDiscrete add ord P.disc) p)]) (on, fun _ => 4) [call] _ :=
    ⟨_, ⟨_, List.mem_singleton.mpr rfl, hacc, rfl⟩, rfl⟩
  refine ⟨D, _, hD, e1, _, hl', ?_⟩
  refine C110_plan addOK ordOK rfl (by decide) (guess_contract _) setting exactOn hD e1 ?_ ?_ hl'
  · intro a A hA e he
    have : A = buildAction add (safeDiscrete add ord P.disc) p := (Prod.mk.inj (List.mem_singleton.mp hA)).2
    subst this
    have he' : e ∈ p.eff := he
    rw [heff, List.mem_singleton] at he'
    rw [he']
    decide
  · intro c hc
    rw [List.mem_singleton.mp hc]
    exact ⟨proper.1, proper.2⟩

/-- The same successes in one exploration without failures: the same safe domain. -/
example : ∃ D D', learnLessons cfg read names (newClass names V fns 0) lessons = .ok D ∧
    learnLessons cfg read names (newClass names V fns 0) [.explored [success 5, success 3] false] = .ok D' ∧
    constructSafe cfg add ord names (discOf D) (numOf D) = constructSafe cfg add ord names (discOf D') (numOf D') := by
  obtain ⟨D, _, _, hD, _⟩ := trained
  have h : (match learnLessons cfg read names (newClass names V fns 0) [.explored [success 5, success 3] false] with
    | .ok _ => true | .error _ => false) = true := by decide +kernel
  cases hD' : learnLessons cfg read names (newClass names V fns 0) [.explored [success 5, success 3] false] with
  | error e => rw [hD'] at h; cases h
  | ok D' =>
    refine ⟨D, D', hD, rfl, C110_failures hD hD' ?_⟩
    intro a ha
    rw [List.mem_singleton.mp ha]
    simp [lessons, shown, containsDuplicates, success, failure, successesAt, call]

end Case
end OnlineTraining
end Props
