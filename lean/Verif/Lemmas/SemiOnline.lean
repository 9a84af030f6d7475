import Verif.Model.SemiOnline
import Verif.Lemmas.Online

/-! Failures are attributed correctly. -/
namespace Model
open Spec

variable {X : Type} [DecidableEq X] {hull : List X → X → Bool}

theorem failed_append (xs ys : List (Event X)) : failed (xs ++ ys) = failed xs + failed ys := by
  induction xs with
  | nil => simp [failed]
  | cons e xs ih => cases e <;> simp [failed, ih, Nat.add_assoc]

theorem successes_append (xs ys : List (Event X)) : successes (xs ++ ys) = successes xs ++ successes ys := by
  induction xs with
  | nil => simp [successes]
  | cons e xs ih => cases e <;> simp [successes, ih]

theorem mem_addPoint {pts : List X} {x y : X} : y ∈ addPoint pts x ↔ y ∈ pts ∨ y = x := by
  unfold addPoint; split <;> simp_all

/-- What is true after the events `es`. -/
structure SemiInv (V T : Finset Lit) (R : X → Prop) (es : List (Event X)) (L : SemiOnline X) : Prop where
  hist : ∃ h, L.disc = (DiscreteOnline.init V).feed h ∧ PreConsistent V h T ∧ h.filter (·.ok) = successes es ∧
    ∀ a ∈ h, ∃ x, Event.attempt a x ∈ es
  points : ∀ p, p ∈ L.points ↔ ∃ a, Event.attempt a p ∈ es ∧ a.ok = true
  failures : ∀ f ∈ L.failures, ¬ R f ∧ ∃ a, Event.attempt a f ∈ es ∧ a.ok = false
  undecided : ∀ u ∈ L.undecided, ∃ a, Event.attempt a u.2 ∈ es ∧ a.ok = false ∧ u.1 = seen V a.ρ a.before

theorem inSafe_congr {L L' : DiscreteOnline} (h1 : L.superset = L'.superset) (h2 : L.cannotPre = L'.cannotPre) (s : Finset Lit) :
    L.inSafe s = L'.inSafe s := by unfold DiscreteOnline.inSafe; rw [h1, h2]

theorem handle_fixed (L : SemiOnline X) (pre : Finset Lit) (x : X) :
    (L.handleFailure hull pre x).disc.superset = L.disc.superset ∧ (L.handleFailure hull pre x).disc.cannotPre = L.disc.cannotPre ∧
    (L.handleFailure hull pre x).points = L.points := by
  unfold SemiOnline.handleFailure
  split
  · exact ⟨rfl, rfl, rfl⟩
  · split
    · refine ⟨?_, ?_, rfl⟩ <;> (unfold DiscreteOnline.add DiscreteOnline.neg; dsimp only; simp only [Bool.false_eq_true, if_false]; split <;> rfl)
    · exact ⟨rfl, rfl, rfl⟩

theorem SemiInv.superset {V T : Finset Lit} {R : X → Prop} {es : List (Event X)} {L : SemiOnline X} (inv : SemiInv V T R es L) :
    L.disc.superset = V := by
  obtain ⟨h, e, _⟩ := inv.hist
  rw [e]; exact (onlineInv V h).superset

/-- One failure is handled: `es` contains it already. -/
theorem SemiInv.handle {V T : Finset Lit} {R : X → Prop} (hs : HullSound hull R) {es : List (Event X)} {L : SemiOnline X}
    (inv : SemiInv V T R es L) (hex : ∀ a x, Event.attempt a x ∈ es → AttemptExplained T R a x) {a : Attempt} {x : X}
    (ha : Event.attempt a x ∈ es) (hok : a.ok = false) : SemiInv V T R es (L.handleFailure hull (seen V a.ρ a.before) x) := by
  obtain ⟨h, e1, e2, e3, e4⟩ := inv.hist
  have hnot : ¬ (applicable T a.ρ a.before ∧ R x) := by
    intro hh; have := (hex a x ha).mpr hh; rw [hok] at this; simp at this
  unfold SemiOnline.handleFailure
  split
  · rename_i hsafe
    refine ⟨inv.hist, inv.points, ?_, inv.undecided⟩
    intro f hf
    dsimp only at hf
    rw [mem_addPoint] at hf
    rcases hf with hf | rfl
    · exact inv.failures f hf
    · refine ⟨fun hR => hnot ⟨?_, hR⟩, a, ha, hok⟩
      rw [e1] at hsafe
      unfold DiscreteOnline.inSafe at hsafe
      rw [decide_eq_true_eq, (onlineInv V h).superset] at hsafe
      intro l hl
      refine (mem_seen.mp (hsafe (Finset.mem_sdiff.mpr ⟨e2.1 hl, fun hn => ?_⟩))).2
      have := (((onlineInv V h).space T e2.1).mp e2).1
      have hm : l ∈ T ∩ ((DiscreteOnline.init V).feed h).cannotPre := Finset.mem_inter.mpr ⟨hl, hn⟩
      rw [this] at hm; simp at hm
  · split
    · rename_i hh
      refine ⟨?_, inv.points, inv.failures, inv.undecided⟩
      have hR : R x := hs L.points (fun p hp => by
        obtain ⟨b, hb, hbok⟩ := (inv.points p).mp hp
        exact ((hex b p hb).mp hbok).2) x hh
      refine ⟨h ++ [a], ?_, preConsistent_append.mpr ⟨e2, ?_⟩, ?_, ?_⟩
      · dsimp only
        rw [e1]
        unfold DiscreteOnline.feed
        rw [List.foldl_append]
        simp only [List.foldl_cons, List.foldl_nil]
        have : (List.foldl (fun L a => L.add (seen L.superset a.ρ a.before) (seen L.superset a.ρ a.after) a.ok)
          (DiscreteOnline.init V) h).superset = V := (onlineInv V h).superset
        rw [this, hok]
        rfl
      · rw [hok]
        simp only [Bool.false_eq_true, false_iff]
        exact fun hap => hnot ⟨hap, hR⟩
      · rw [List.filter_append, e3]; simp [hok]
      · intro b hb
        rw [List.mem_append, List.mem_singleton] at hb
        rcases hb with hb | rfl
        · exact e4 b hb
        · exact ⟨x, ha⟩
    · refine ⟨inv.hist, inv.points, inv.failures, ?_⟩
      intro u hu
      dsimp only at hu
      rw [List.mem_append, List.mem_singleton] at hu
      rcases hu with hu | rfl
      · exact inv.undecided u hu
      · exact ⟨a, ha, hok, rfl⟩

theorem SemiInv.handleAll {V T : Finset Lit} {R : X → Prop} (hs : HullSound hull R) {es : List (Event X)}
    (hex : ∀ a x, Event.attempt a x ∈ es → AttemptExplained T R a x) (us : List (Finset Lit × X))
    (hus : ∀ u ∈ us, ∃ a, Event.attempt a u.2 ∈ es ∧ a.ok = false ∧ u.1 = seen V a.ρ a.before) {L : SemiOnline X}
    (inv : SemiInv V T R es L) : SemiInv V T R es (us.foldl (fun L u => L.handleFailure hull u.1 u.2) L) := by
  induction us generalizing L with
  | nil => exact inv
  | cons u us ih =>
    rw [List.foldl_cons]
    refine ih (fun v hv => hus v (List.mem_cons_of_mem _ hv)) ?_
    obtain ⟨a, h1, h2, h3⟩ := hus u List.mem_cons_self
    rw [h3]
    exact inv.handle hs hex h1 h2

theorem SemiInv.eliminate {V T : Finset Lit} {R : X → Prop} (hs : HullSound hull R) {es : List (Event X)} {L : SemiOnline X}
    (inv : SemiInv V T R es L) (hex : ∀ a x, Event.attempt a x ∈ es → AttemptExplained T R a x) :
    SemiInv V T R es (L.eliminate hull) := by
  unfold SemiOnline.eliminate
  refine SemiInv.handleAll hs hex _ (fun u hu => inv.undecided u (by simpa using hu)) ?_
  exact ⟨inv.hist, inv.points, inv.failures, by simp⟩

theorem SemiInv.weaken {V T : Finset Lit} {R : X → Prop} {es es' : List (Event X)} {L : SemiOnline X} (inv : SemiInv V T R es L)
    (hsub : ∀ e ∈ es, e ∈ es') (hp : ∀ a x, Event.attempt a x ∈ es' → a.ok = true → Event.attempt a x ∈ es)
    (hsu : successes es' = successes es) : SemiInv V T R es' L := by
  obtain ⟨h, e1, e2, e3, e4⟩ := inv.hist
  refine ⟨⟨h, e1, e2, e3.trans hsu.symm, fun a ha => ?_⟩, fun p => ?_, fun f hf => ?_, fun u hu => ?_⟩
  · obtain ⟨x, hx⟩ := e4 a ha; exact ⟨x, hsub _ hx⟩
  · rw [inv.points]
    exact ⟨fun ⟨a, h1, h2⟩ => ⟨a, hsub _ h1, h2⟩, fun ⟨a, h1, h2⟩ => ⟨a, hp a p h1 h2, h2⟩⟩
  · obtain ⟨h1, a, h2, h3⟩ := inv.failures f hf; exact ⟨h1, a, hsub _ h2, h3⟩
  · obtain ⟨a, h1, h2⟩ := inv.undecided u hu; exact ⟨a, hsub _ h1, h2⟩

theorem SemiInv.run {V T : Finset Lit} {R : X → Prop} (hs : HullSound hull R) (es : List (Event X))
    {es0 : List (Event X)} {L : SemiOnline X} (inv : SemiInv V T R es0 L)
    (hex : ∀ a x, Event.attempt a x ∈ es0 ++ es → AttemptExplained T R a x) : SemiInv V T R (es0 ++ es) (L.run hull es) := by
  induction es generalizing es0 L with
  | nil => simpa [SemiOnline.run] using inv
  | cons e es ih =>
    have key : ∀ L', SemiInv V T R (es0 ++ [e]) L' → SemiInv V T R (es0 ++ e :: es) (L'.run hull es) := by
      intro L' h'
      have := ih h' (by simpa using hex)
      simpa using this
    cases e with
    | eliminate =>
      refine key _ (SemiInv.weaken (inv.eliminate hs fun a x h => hex a x (by simp [h])) ?_ ?_ ?_)
      · intro e he; simp [he]
      · intro a x h _; simpa using h
      · rw [successes_append]; simp [successes]
    | attempt a x =>
      refine key _ ?_
      unfold SemiOnline.addTransition
      cases hok : a.ok with
      | false =>
        simp only [Bool.false_eq_true, if_false]
        rw [inv.superset]
        have hw : SemiInv V T R (es0 ++ [Event.attempt a x]) L := inv.weaken (fun e he => by simp [he])
          (fun b y hb hbok => by
            rw [List.mem_append, List.mem_singleton] at hb
            rcases hb with hb | hb
            · exact hb
            · simp only [Event.attempt.injEq] at hb
              obtain ⟨rfl, rfl⟩ := hb
              rw [hok] at hbok; simp at hbok)
          (by rw [successes_append]; simp [successes, hok])
        exact hw.handle hs (fun b y hb => hex b y (by
          rw [List.mem_append, List.mem_singleton] at hb
          rcases hb with hb | hb <;> simp [hb])) (by simp) hok
      | true =>
        simp only [if_true]
        rw [inv.superset]
        obtain ⟨h, e1, e2, e3, e4⟩ := inv.hist
        refine ⟨⟨h ++ [a], ?_, preConsistent_append.mpr ⟨e2, ?_⟩, ?_, ?_⟩, fun p => ?_, fun f hf => ?_, fun u hu => ?_⟩
        · dsimp only
          rw [e1]
          unfold DiscreteOnline.feed
          rw [List.foldl_append]
          simp only [List.foldl_cons, List.foldl_nil]
          have : (List.foldl (fun L a => L.add (seen L.superset a.ρ a.before) (seen L.superset a.ρ a.after) a.ok)
            (DiscreteOnline.init V) h).superset = V := (onlineInv V h).superset
          rw [this, hok]
        · rw [hok]
          simp only [true_iff]
          exact ((hex a x (by simp)).mp hok).1
        · rw [List.filter_append, e3, successes_append]; simp [successes, hok]
        · intro b hb
          rw [List.mem_append, List.mem_singleton] at hb
          rcases hb with hb | rfl
          · obtain ⟨y, hy⟩ := e4 b hb; exact ⟨y, by simp [hy]⟩
          · exact ⟨x, by simp⟩
        · dsimp only
          rw [mem_addPoint, inv.points]
          simp only [List.mem_append, List.mem_singleton, Event.attempt.injEq]
          constructor
          · rintro (⟨b, h1, h2⟩ | rfl)
            · exact ⟨b, Or.inl h1, h2⟩
            · exact ⟨a, Or.inr ⟨rfl, rfl⟩, hok⟩
          · rintro ⟨b, h1 | ⟨rfl, rfl⟩, h2⟩
            · exact Or.inl ⟨b, h1, h2⟩
            · exact Or.inr rfl
        · obtain ⟨h1, b, h2, h3⟩ := inv.failures f hf; exact ⟨h1, b, by simp [h2], h3⟩
        · obtain ⟨b, h1, h2⟩ := inv.undecided u hu; exact ⟨b, by simp [h1], h2⟩

theorem semiInv {V T : Finset Lit} {R : X → Prop} (hs : HullSound hull R) (hT : T ⊆ V) (es : List (Event X))
    (hex : ∀ a x, Event.attempt a x ∈ es → AttemptExplained T R a x) : SemiInv V T R es ((SemiOnline.init V).run hull es) := by
  have : SemiInv V T R ([] : List (Event X)) (SemiOnline.init V) := by
    refine ⟨⟨[], rfl, ⟨hT, by simp⟩, rfl, by simp⟩, by simp [SemiOnline.init], by simp [SemiOnline.init], by simp [SemiOnline.init]⟩
  simpa using this.run hs es (by simpa using hex)

/-! ### Conservation of failures and elimination -/

/-- Failures the learner has accounted for. -/
def SemiOnline.accounted (L : SemiOnline X) : Nat := L.numericCount + L.discreteCount + L.undecided.length

theorem accounted_handle (L : SemiOnline X) (pre : Finset Lit) (x : X) :
    (L.handleFailure hull pre x).accounted = L.accounted + 1 := by
  unfold SemiOnline.handleFailure SemiOnline.accounted
  split
  · dsimp only; omega
  · split
    · dsimp only; omega
    · simp only [List.length_append, List.length_singleton]; omega

theorem accounted_handleAll (us : List (Finset Lit × X)) (L : SemiOnline X) :
    (us.foldl (fun L u => L.handleFailure hull u.1 u.2) L).accounted = L.accounted + us.length := by
  induction us generalizing L with
  | nil => simp
  | cons u us ih => rw [List.foldl_cons, ih, accounted_handle, List.length_cons]; omega

theorem accounted_eliminate (L : SemiOnline X) : (L.eliminate hull).accounted = L.accounted := by
  unfold SemiOnline.eliminate
  rw [accounted_handleAll, List.length_reverse]
  simp [SemiOnline.accounted]

theorem accounted_run (es : List (Event X)) (L : SemiOnline X) : (L.run hull es).accounted = L.accounted + failed es := by
  induction es generalizing L with
  | nil => simp [SemiOnline.run, failed]
  | cons e es ih =>
    cases e with
    | eliminate => simp only [SemiOnline.run, failed]; rw [ih, accounted_eliminate]
    | attempt a x =>
      simp only [SemiOnline.run, failed]
      rw [ih]
      unfold SemiOnline.addTransition
      cases a.ok with
      | true => simp [SemiOnline.accounted]
      | false => simp only [Bool.false_eq_true, if_false]; rw [accounted_handle]; omega

/-- Neither part is known to hold. -/
def SemiOnline.undecidable (hull : List X → X → Bool) (L : SemiOnline X) (u : Finset Lit × X) : Bool :=
  !L.disc.inSafe u.1 && !hull L.points u.2

theorem handleAll_undecided (us : List (Finset Lit × X)) (L : SemiOnline X) :
    (us.foldl (fun L u => L.handleFailure hull u.1 u.2) L).undecided = L.undecided ++ us.filter (L.undecidable hull) ∧
    (us.foldl (fun L u => L.handleFailure hull u.1 u.2) L).undecidable hull = L.undecidable hull := by
  induction us generalizing L with
  | nil => simp
  | cons u us ih =>
    rw [List.foldl_cons]
    obtain ⟨h1, h2⟩ := ih (L.handleFailure hull u.1 u.2)
    obtain ⟨f1, f2, f3⟩ := handle_fixed (hull := hull) L u.1 u.2
    have hu : (L.handleFailure hull u.1 u.2).undecidable hull = L.undecidable hull := by
      funext v
      unfold SemiOnline.undecidable
      rw [inSafe_congr f1 f2, f3]
    rw [hu] at h1 h2
    refine ⟨?_, h2⟩
    rw [h1]
    have hstep : (L.handleFailure hull u.1 u.2).undecided = L.undecided ++ if L.undecidable hull u then [u] else [] := by
      unfold SemiOnline.handleFailure SemiOnline.undecidable
      cases L.disc.inSafe u.1 <;> cases hull L.points u.2 <;> simp
    rw [hstep, List.append_assoc]
    congr 1
    by_cases hx : L.undecidable hull u = true <;> simp [hx]

theorem eliminate_undecided (L : SemiOnline X) :
    (L.eliminate hull).undecided = L.undecided.reverse.filter (L.undecidable hull) ∧
    (L.eliminate hull).undecidable hull = L.undecidable hull := by
  have := handleAll_undecided (hull := hull) L.undecided.reverse { L with undecided := [] }
  exact this

end Model
