import Verif.Lemmas.SemiOnline
import Verif.Props.Online

/-! C52, C53: attributing failures to the discrete or the numeric part, and informative samples. -/
namespace Props
open Model Spec

section
variable {X : Type} [DecidableEq X] {hull : List X → X → Bool} {V T : Finset Lit} {R : X → Prop} {es : List (Event X)}

/-- The learner after a run. -/
def ran (hull : List X → X → Bool) (V : Finset Lit) (es : List (Event X)) : SemiOnline X := (SemiOnline.init V).run hull es

/-- **C52.** Whatever the interleaving of attempts and eliminations: the failures kept as numeric ones are attempts whose
numeric precondition really did not hold, and the discrete learner is the one fed with all the successes, in order, and with
failed attempts whose discrete precondition really did not hold. -/
theorem C52_attribution_sound (hs : HullSound hull R) (hT : T ⊆ V)
    (hex : ∀ a x, Event.attempt a x ∈ es → AttemptExplained T R a x) :
    (∀ f ∈ (ran hull V es).failures, ¬ R f ∧ ∃ a, Event.attempt a f ∈ es ∧ a.ok = false) ∧
    ∃ h, (ran hull V es).disc = learned V h ∧ h.filter (·.ok) = successes es ∧
      (∀ a ∈ h, ∃ x, Event.attempt a x ∈ es) ∧ ∀ a ∈ h, a.ok = false → ¬ applicable T a.ρ a.before := by
  have inv := semiInv hs hT es hex
  obtain ⟨h, e1, e2, e3, e4⟩ := inv.hist
  exact ⟨inv.failures, h, e1, e3, e4, fun a ha hok hap => by have := (e2.2 a ha).mpr hap; rw [hok] at this; simp at this⟩

/-- C52: so both verdicts of the discrete learner stay sound although the reason of a failure is not observed. -/
theorem C52_discrete_verdicts (hs : HullSound hull R) (hT : T ⊆ V)
    (hex : ∀ a x, Event.attempt a x ∈ es → AttemptExplained T R a x) (ρ : String → String) (s : State) :
    ((ran hull V es).disc.inSafe (seen V ρ s) = true → applicable T ρ s) ∧
    ((ran hull V es).disc.notApplicable (seen V ρ s) = true → ¬ applicable T ρ s) := by
  obtain ⟨h, e1, e2, _⟩ := (semiInv hs hT es hex).hist
  rw [show (ran hull V es).disc = learned V h from e1]
  exact ⟨fun hh => (C30_safe_exact ⟨T, e2⟩ ρ s).mp hh T e2, fun hh => (C31_not_applicable_exact ρ s).mp hh T e2⟩

/-- C52: no failure is lost or counted as decided twice. -/
theorem C52_conservation :
    (ran hull V es).numericCount + (ran hull V es).discreteCount + (ran hull V es).undecided.length = failed es := by
  have := accounted_run (hull := hull) es (SemiOnline.init V)
  rw [show (SemiOnline.init V : SemiOnline X).accounted = 0 from rfl, Nat.zero_add] at this
  exact this

/-- C52: one elimination pass decides every failure that can be decided: it keeps, as a multiset, exactly the failures for which
neither part is known to hold, and a second pass right after it keeps the same ones. -/
theorem C52_elimination_complete :
    (∀ u, u ∈ ((ran hull V es).eliminate hull).undecided ↔ u ∈ (ran hull V es).undecided ∧
      (ran hull V es).disc.inSafe u.1 = false ∧ hull (ran hull V es).points u.2 = false) ∧
    (((ran hull V es).eliminate hull).eliminate hull).undecided.Perm ((ran hull V es).eliminate hull).undecided := by
  obtain ⟨h1, h2⟩ := eliminate_undecided (hull := hull) (ran hull V es)
  constructor
  · intro u
    rw [h1, List.mem_filter, List.mem_reverse]
    unfold SemiOnline.undecidable
    simp
  · rw [(eliminate_undecided (hull := hull) ((ran hull V es).eliminate hull)).1, h2, h1, ← List.filter_reverse]
    simp only [List.reverse_reverse, List.filter_filter, Bool.and_self]
    rw [List.filter_reverse]
    exact (List.reverse_perm _).symm

/-- **C53.** A sample declared uninformative has a determined outcome: either both parts of the precondition hold, or one fails;
and `is_applicable` tells which. -/
theorem C53_uninformative_determined (hs : HullSound hull R) (hT : T ⊆ V)
    (hex : ∀ a x, Event.attempt a x ∈ es → AttemptExplained T R a x) (ρ : String → String) (s : State) (x : X)
    (hni : (ran hull V es).isInformative hull (seen V ρ s) x = false) :
    ((ran hull V es).isApplicable hull (seen V ρ s) x = true ↔ applicable T ρ s ∧ R x) := by
  have inv := semiInv hs hT es hex
  have hd := C52_discrete_verdicts hs hT hex ρ s
  have hpts : ∀ p ∈ (ran hull V es).points, R p := fun p hp => by
    obtain ⟨b, hb, hbok⟩ := (inv.points p).mp hp
    exact ((hex b p hb).mp hbok).2
  unfold SemiOnline.isInformative at hni
  unfold SemiOnline.isApplicable
  split at hni
  · rename_i hsafe
    rw [hsafe]
    rw [Bool.and_eq_true] at hsafe
    exact ⟨fun _ => ⟨hd.1 hsafe.1, hs _ hpts x hsafe.2⟩, fun _ => rfl⟩
  · rename_i hsafe
    refine ⟨fun h => absurd h hsafe, fun ⟨ha, hR⟩ => ?_⟩
    rw [Bool.not_eq_false', Bool.or_eq_true] at hni
    rcases hni with h | h
    · exact absurd ha (hd.2 h)
    · unfold SemiOnline.numericNotApplicable at h
      split at h
      · simp at h
      · rw [List.any_eq_true] at h
        obtain ⟨f, hf, hfh⟩ := h
        refine absurd (hs _ (fun p hp => ?_) f hfh) (inv.failures f hf).1
        rw [mem_addPoint] at hp
        rcases hp with hp | rfl
        · exact hpts p hp
        · exact hR

/-- C53: being applicable is never claimed wrongly, informative or not. -/
theorem C53_applicable_sound (hs : HullSound hull R) (hT : T ⊆ V)
    (hex : ∀ a x, Event.attempt a x ∈ es → AttemptExplained T R a x) (ρ : String → String) (s : State) (x : X)
    (h : (ran hull V es).isApplicable hull (seen V ρ s) x = true) :
    applicable T ρ s ∧ R x ∧ (ran hull V es).isInformative hull (seen V ρ s) x = false := by
  have hni : (ran hull V es).isInformative hull (seen V ρ s) x = false := by
    unfold SemiOnline.isApplicable at h
    unfold SemiOnline.isInformative
    rw [if_pos h]
  obtain ⟨h1, h2⟩ := (C53_uninformative_determined hs hT hex ρ s x hni).mp h
  exact ⟨h1, h2, hni⟩

end

/-! ### A concrete run over integers -/

private def p : Lit := ⟨"p", ["?x"], true⟩
private def voc : Finset Lit := {p, p.neg}
private def sub (x : String) : String := if x = "?x" then "a" else x
private def has : State := {⟨"p", ["a"]⟩}
/-- Between two observed points. -/
private def interval (pts : List Int) (x : Int) : Bool := pts.any (· ≤ x) && pts.any (x ≤ ·)
/-- Needs `p` and a positive number. -/
private def demo : List (Event Int) :=
  [.attempt ⟨sub, ∅, ∅, false⟩ 3, .attempt ⟨sub, has, has, true⟩ 2, .attempt ⟨sub, has, has, true⟩ 5, .eliminate,
   .attempt ⟨sub, has, has, false⟩ 0, .attempt ⟨sub, ∅, ∅, false⟩ 7]

example : HullSound interval (fun x => 0 < x) := by
  intro pts h x hx
  simp only [interval, Bool.and_eq_true, List.any_eq_true, decide_eq_true_eq] at hx
  obtain ⟨⟨y, hy, hyx⟩, _⟩ := hx
  exact lt_of_lt_of_le (h y hy) hyx

example : ∀ a x, Event.attempt a x ∈ demo → AttemptExplained {p} (fun x : Int => 0 < x) a x := by
  intro a x h
  simp only [demo, List.mem_cons, Event.attempt.injEq, reduceCtorEq, List.not_mem_nil, or_false, false_or] at h
  unfold AttemptExplained
  rcases h with ⟨rfl, rfl⟩ | ⟨rfl, rfl⟩ | ⟨rfl, rfl⟩ | ⟨rfl, rfl⟩ | ⟨rfl, rfl⟩ <;> decide +kernel

/-- The first failure is undecided, then attributed to the discrete part; one failure is numeric and one stays undecided. -/
example : let L := ran interval voc demo
    (L.numericCount, L.discreteCount, L.undecided.length, L.failures) = (1, 1, 1, [0]) ∧ L.disc.mustPre = [{p}] := by
  decide +kernel

/-- The counter of unknown failures is not decreased when a failure is decided, nor kept when one stays undecided: here a single
failed attempt is reported as two unknown failures (semi_online_learning_algorithm.py:147-148, 160-167). -/
theorem C52_unknown_overcounted :
    (ran interval voc [.attempt ⟨sub, ∅, ∅, false⟩ 3, .eliminate]).unknownCount = 2 ∧
    failed [Event.attempt ⟨sub, ∅, ∅, false⟩ (3 : Int), .eliminate] = 1 := by decide +kernel

end Props
