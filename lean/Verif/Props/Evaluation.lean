import Verif.Model.Evaluation
import Verif.Props.Cluster

/-!
C124: the data on which the learned domains of a fold are evaluated.
-/
namespace Props
namespace Evaluation

open Model Model.Evaluation Spec
open Props.Cluster (jobName trainItems testItems HoldsTraining HoldsTest)

/-! ### Vocabulary -/

/-- The names of the problem files that the reader finds in a directory, in some order. -/
def Lists {C : Type} (pre : String) (d : Dir C) (listing : List String) : Prop :=
  ∀ p, p ∈ listing ↔ pre.toList <+: p.toList ∧ ∃ c, d p .problem = some c

/-- `glob` lists every file of a directory once. -/
def Orders {C : Type} (E : Env C) : Prop := ∀ s p, p ∈ E.order s ↔ p ∈ s

/-- The walks of a fold on these problems succeed, with these plans and trajectories. -/
def WalksOk {C : Type} (E : Env C) (f : Nat) (plan traj : String → C) (l : List String) : Prop :=
  ∀ q ∈ l, ∀ text, E.work q .problem = some text → E.walk f q text = .ok (plan q, .ok (traj q))

/-- The test items of a fold whose names begin with the prefix. -/
def evaluated (pre : String) (items : List String) : List String := items.filter fun p => decide (pre.toList <+: p.toList)

/-- All files of these problems are in the working directory. -/
def Complete {C : Type} (work : Dir C) (l : List String) : Prop := ∀ q ∈ l, ∀ k, ∃ c, work q k = some c

/-! ### The loops -/

theorem randomName_inj {p q : String} (h : randomName p = randomName q) : p = q := by
  unfold randomName at h
  have h' := congrArg String.toList h
  rw [String.toList_append, String.toList_append] at h'
  exact String.toList_inj.mp (List.append_cancel_right h')

theorem matching_iff (pre p : String) : matching pre p = true ↔ pre.toList <+: p.toList := by
  unfold matching
  exact List.isPrefixOf_iff_prefix

theorem prefix_random {pre p : String} (h : pre.toList <+: p.toList) : pre.toList <+: (randomName p).toList := by
  unfold randomName
  rw [String.toList_append]
  exact h.trans (List.prefix_append _ _)

variable {C : Type}

/-- What a fold's directory holds afterwards, from what it held. -/
structure FoldData (work : Dir C) (plan traj : String → C) (random : Bool) (tests : List String) (old d : Dir C) : Prop where
  copied : ∀ q ∈ tests, ∀ k, d q k = work q k
  walked : random = true → ∀ q ∈ tests, randomName q ∉ tests → old (randomName q) .trajectory = none →
    d (randomName q) .problem = work q .problem ∧ d (randomName q) .solution = some (plan q) ∧ d (randomName q) .trajectory = some (traj q)
  keptWalk : random = true → ∀ q ∈ tests, randomName q ∉ tests → old (randomName q) .trajectory ≠ none →
    ∀ k, d (randomName q) k = old (randomName q) k
  kept : ∀ p, p ∉ tests → (random = true → ∀ q ∈ tests, p ≠ randomName q) → ∀ k, d p k = old p k

theorem write_same (d : Dir C) (p : String) (k : Kind) (c : C) : d.write p k c p k = some c := by
  unfold Dir.write; simp

theorem write_other (d : Dir C) (p q : String) (k j : Kind) (c : C) (h : q ≠ p ∨ j ≠ k) : d.write p k c q j = d q j := by
  unfold Dir.write
  rw [if_neg]
  rintro ⟨rfl, rfl⟩
  rcases h with h | h <;> exact h rfl

theorem copyLoop_ok (work : Dir C) : ∀ (l : List String) (d : Dir C), Complete work l →
    ∃ d', copyLoop work l d = (d', none) ∧ (∀ q ∈ l, ∀ k, d' q k = work q k) ∧ ∀ q, q ∉ l → ∀ k, d' q k = d q k
  | [], d, _ => ⟨d, rfl, by simp, fun _ _ _ => rfl⟩
  | p :: ps, d, h => by
    obtain ⟨c1, h1⟩ := h p (by simp) .problem
    obtain ⟨c2, h2⟩ := h p (by simp) .solution
    obtain ⟨c3, h3⟩ := h p (by simp) .trajectory
    obtain ⟨d', hd, hin, hout⟩ := copyLoop_ok work ps (((d.write p .problem c1).write p .solution c2).write p .trajectory c3)
      (fun q hq => h q (List.mem_cons_of_mem _ hq))
    refine ⟨d', ?_, ?_, ?_⟩
    · unfold copyLoop copyFile
      simp only [h1, h2, h3]
      exact hd
    · intro q hq k
      by_cases hq' : q ∈ ps
      · exact hin q hq' k
      · have : q = p := by simpa [hq'] using hq
        subst this
        rw [hout q hq']
        cases k
        · rw [write_other _ _ _ _ _ _ (.inr (by decide)), write_other _ _ _ _ _ _ (.inr (by decide)), write_same, h1]
        · rw [write_other _ _ _ _ _ _ (.inr (by decide)), write_same, h2]
        · rw [write_same, h3]
    · intro q hq k
      simp only [List.mem_cons, not_or] at hq
      rw [hout q hq.2, write_other _ _ _ _ _ _ (.inl hq.1), write_other _ _ _ _ _ _ (.inl hq.1), write_other _ _ _ _ _ _ (.inl hq.1)]

theorem randomLoop_ok (work : Dir C) (walk : Walk C) (plan traj : String → C) : ∀ (l : List String) (d : Dir C), Complete work l →
    (∀ q ∈ l, ∀ text, work q .problem = some text → walk q text = .ok (plan q, .ok (traj q))) →
    ∃ d', randomLoop work walk l d = (d', none) ∧
      (∀ q ∈ l, d (randomName q) .trajectory = none → d' (randomName q) .problem = work q .problem ∧
        d' (randomName q) .solution = some (plan q) ∧ d' (randomName q) .trajectory = some (traj q)) ∧
      (∀ q, d (randomName q) .trajectory ≠ none → ∀ k, d' (randomName q) k = d (randomName q) k) ∧
      ∀ p, (∀ q ∈ l, p ≠ randomName q) → ∀ k, d' p k = d p k
  | [], d, _, _ => ⟨d, rfl, by simp, fun _ _ _ => rfl, fun _ _ _ => rfl⟩
  | p :: ps, d, h, hw => by
    have hc : Complete work ps := fun q hq => h q (List.mem_cons_of_mem _ hq)
    have hw' : ∀ q ∈ ps, ∀ text, work q .problem = some text → walk q text = .ok (plan q, .ok (traj q)) :=
      fun q hq => hw q (List.mem_cons_of_mem _ hq)
    by_cases hs : (d (randomName p) .trajectory).isSome
    · obtain ⟨d', hd, h1, h2, h3⟩ := randomLoop_ok work walk plan traj ps d hc hw'
      refine ⟨d', ?_, ?_, h2, fun q hq k => h3 q (fun r hr => hq r (List.mem_cons_of_mem _ hr)) k⟩
      · unfold randomLoop
        rw [if_pos hs]
        exact hd
      · intro q hq hn
        rcases List.mem_cons.mp hq with rfl | hq
        · rw [hn] at hs; cases hs
        · exact h1 q hq hn
    · obtain ⟨text, ht⟩ := h p (by simp) .problem
      have hwp := hw p (by simp) text ht
      obtain ⟨d', hd, h1, h2, h3⟩ := randomLoop_ok work walk plan traj ps
        (((d.write (randomName p) .solution (plan p)).write (randomName p) .problem text).write (randomName p) .trajectory (traj p)) hc hw'
      refine ⟨d', ?_, ?_, ?_, ?_⟩
      · unfold randomLoop
        rw [if_neg hs]
        simp only [ht, hwp]
        exact hd
      · intro q hq hn
        by_cases hqp : q = p
        · subst hqp
          have h2' := h2 q (by rw [write_same]; simp)
          rw [h2', h2', h2']
          refine ⟨?_, ?_, write_same _ _ _ _⟩
          · rw [write_other _ _ _ _ _ _ (.inr (by decide)), write_same, ht]
          · rw [write_other _ _ _ _ _ _ (.inr (by decide)), write_other _ _ _ _ _ _ (.inr (by decide)), write_same]
        · have hne : randomName q ≠ randomName p := fun e => hqp (randomName_inj e)
          apply h1 q
          · rcases List.mem_cons.mp hq with rfl | hq
            · exact absurd rfl hqp
            · exact hq
          · rw [write_other _ _ _ _ _ _ (.inl hne), write_other _ _ _ _ _ _ (.inl hne), write_other _ _ _ _ _ _ (.inl hne)]
            exact hn
      · intro q hn k
        have hne : randomName q ≠ randomName p := by
          intro e
          apply hs
          rw [← e]
          exact Option.isSome_iff_ne_none.mpr hn
        have := h2 q (by
          rw [write_other _ _ _ _ _ _ (.inl hne), write_other _ _ _ _ _ _ (.inl hne), write_other _ _ _ _ _ _ (.inl hne)]
          exact hn) k
        rw [this, write_other _ _ _ _ _ _ (.inl hne), write_other _ _ _ _ _ _ (.inl hne), write_other _ _ _ _ _ _ (.inl hne)]
      · intro q hq k
        have hne : q ≠ randomName p := hq p (by simp)
        rw [h3 q (fun r hr => hq r (List.mem_cons_of_mem _ hr)), write_other _ _ _ _ _ _ (.inl hne), write_other _ _ _ _ _ _ (.inl hne),
          write_other _ _ _ _ _ _ (.inl hne)]

theorem fill_ok (work : Dir C) (walk : Walk C) (plan traj : String → C) (pre : String) (random : Bool) (listing tests : List String) (d : Dir C)
    (hl : ∀ p, p ∈ listing.filter (matching pre) ↔ p ∈ tests) (hc : Complete work tests)
    (hw : random = true → ∀ q ∈ tests, ∀ text, work q .problem = some text → walk q text = .ok (plan q, .ok (traj q))) :
    ∃ d', fillFold work walk pre random listing d = (d', none) ∧ FoldData work plan traj random tests d d' := by
  have hc' : Complete work (listing.filter (matching pre)) := fun q hq => hc q ((hl q).mp hq)
  unfold fillFold
  cases random with
  | false =>
    obtain ⟨d', hd, h1, h2⟩ := copyLoop_ok work (listing.filter (matching pre)) d hc'
    refine ⟨d', ?_, fun q hq => h1 q ((hl q).mpr hq), fun hr => (Bool.noConfusion hr), fun hr => (Bool.noConfusion hr),
      fun p hp _ => h2 p (fun hh => hp ((hl p).mp hh))⟩
    simpa using hd
  | true =>
    obtain ⟨d1, hd1, w1, w2, w3⟩ := randomLoop_ok work walk plan traj (listing.filter (matching pre)) d hc'
      (fun q hq => hw rfl q ((hl q).mp hq))
    obtain ⟨d', hd, h1, h2⟩ := copyLoop_ok work (listing.filter (matching pre)) d1 hc'
    have out : ∀ p, p ∉ tests → ∀ k, d' p k = d1 p k := fun p hp => h2 p (fun hh => hp ((hl p).mp hh))
    refine ⟨d', ?_, fun q hq => h1 q ((hl q).mpr hq), ?_, ?_, ?_⟩
    · simp only [if_true, hd1]
      exact hd
    · intro _ q hq hn ho
      rw [out _ hn, out _ hn, out _ hn]
      exact w1 q ((hl q).mpr hq) ho
    · intro _ q hq hn ho k
      rw [out _ hn, w2 q ho]
    · intro p hp hp' k
      rw [out p hp, w3 p (fun q hq => hp' rfl q ((hl q).mp hq))]

theorem folds_ok (E : Env C) (domain pre : String) (random : Bool) (td : Nat → Option (Finset File)) (plan traj : Nat → String → C)
    (tests : Nat → List String) : ∀ (n start : Nat) (evals : Nat → Option (Dir C)),
    (∀ f, start ≤ f → f < start + n → ∃ s, td f = some s ∧
      (∀ p, p ∈ (E.order (insert domain (problemStems s))).filter (matching pre) ↔ p ∈ tests f) ∧ Complete E.work (tests f) ∧
      (random = true → WalksOk E f (plan f) (traj f) (tests f))) →
    ∃ evals', folds E domain pre random td start n evals = (evals', none) ∧
      (∀ f, start ≤ f → f < start + n → ∃ d, evals' f = some d ∧
        FoldData E.work (plan f) (traj f) random (tests f) ((evals f).getD Dir.empty) d) ∧
      ∀ f, f < start ∨ start + n ≤ f → evals' f = evals f
  | 0, start, evals, _ => ⟨evals, rfl, fun f h1 h2 => by omega, fun _ _ => rfl⟩
  | n + 1, start, evals, h => by
    obtain ⟨s, hs, hl, hc, hw⟩ := h start (Nat.le_refl _) (by omega)
    obtain ⟨d0, hd0, hfd⟩ := fill_ok E.work (E.walk start) (plan start) (traj start) pre random _ (tests start)
      ((evals start).getD Dir.empty) hl hc hw
    obtain ⟨evals', he, h1, h2⟩ := folds_ok E domain pre random td plan traj tests n (start + 1)
      (Function.update evals start (some d0)) (fun f hf1 hf2 => h f (by omega) (by omega))
    refine ⟨evals', ?_, ?_, ?_⟩
    · unfold folds
      simp only [hs, hd0]
      exact he
    · intro f hf1 hf2
      by_cases hf : f = start
      · subst hf
        refine ⟨d0, ?_, hfd⟩
        rw [h2 f (.inl (by omega)), Function.update_self]
      · obtain ⟨d, hd, hfd'⟩ := h1 f (by omega) (by omega)
        rw [Function.update_of_ne hf] at hfd'
        exact ⟨d, hd, hfd'⟩
    · intro f hf
      have hne : f ≠ start := by omega
      rw [h2 f (by omega), Function.update_of_ne hne]

theorem mem_evaluated {pre : String} {items : List String} {p : String} : p ∈ evaluated pre items ↔ p ∈ items ∧ pre.toList <+: p.toList := by
  unfold evaluated
  simp

/-- The creation on directories that hold the test sets `tests f`. -/
theorem create_ok (E : Env C) (hord : Orders E) (domain pre : String) (hdom : ¬ pre.toList <+: domain.toList) (alg : Nat) (its : List Nat)
    (random : Bool) (n : Nat) (disk : Model.Cluster.Disk) (evals : Nat → Option (Dir C)) (plan traj : Nat → String → C) (tests : Nat → List String)
    (ht : ∀ f < n, HoldsTest (tests f) (disk.test (jobName f alg 1))) (hc : ∀ f < n, Complete E.work (evaluated pre (tests f)))
    (hw : random = true → ∀ f < n, WalksOk E f (plan f) (traj f) (evaluated pre (tests f))) :
    ∃ evals', create E domain pre alg (some its) random n disk evals = (evals', none) ∧
      (∀ f < n, ∃ d, evals' f = some d ∧
        FoldData E.work (plan f) (traj f) random (evaluated pre (tests f)) ((evals f).getD Dir.empty) d) ∧
      ∀ f, n ≤ f → evals' f = evals f := by
  obtain ⟨evals', he, h1, h2⟩ := folds_ok E domain pre random
    (fun f => disk.test ("fold_".toList ++ Results.num f ++ '_' :: Results.num alg ++ (if (some its).isSome then "_1".toList else [])))
    plan traj (fun f => evaluated pre (tests f)) n 0 evals (by
    intro f _ hf
    obtain ⟨c, hc1, hc2⟩ := ht f (by omega)
    refine ⟨c, ?_, ?_, hc f (by omega), fun hr => hw hr f (by omega)⟩
    · rw [← hc1]
      rfl
    · intro p
      simp only [List.mem_filter, hord _ p, matching_iff, mem_evaluated, Finset.mem_insert]
      unfold problemStems
      constructor
      · rintro ⟨rfl | hm, hp⟩
        · exact absurd hp hdom
        · obtain ⟨x, hx, rfl⟩ := Finset.mem_image.mp hm
          exact ⟨((hc2 x).mp hx).2, hp⟩
      · rintro ⟨hm, hp⟩
        exact ⟨.inr (Finset.mem_image.mpr ⟨⟨p, .problem⟩, (hc2 _).mpr ⟨rfl, hm⟩, rfl⟩), hp⟩)
  refine ⟨evals', he, fun f hf => h1 f (by omega) (by omega), fun f hf => h2 f (.inr (by omega))⟩

/-! ### Reading -/

theorem readAll_ok (d : Dir C) : ∀ l : List String, (∀ p ∈ l, (∃ c, d p .problem = some c) ∧ ∃ c, d p .trajectory = some c) →
    ∃ r, readAll d l = .ok r ∧ ∀ text t, (text, t) ∈ r ↔ ∃ p ∈ l, d p .problem = some text ∧ d p .trajectory = some t
  | [], _ => ⟨[], rfl, by simp⟩
  | p :: ps, h => by
    obtain ⟨⟨c1, h1⟩, c2, h2⟩ := h p (by simp)
    obtain ⟨r, hr, hm⟩ := readAll_ok d ps (fun q hq => h q (List.mem_cons_of_mem _ hq))
    refine ⟨(c1, c2) :: r, ?_, ?_⟩
    · unfold readAll
      simp only [h1, h2, hr]
    · intro text t
      simp only [List.mem_cons, Prod.mk.injEq, hm, exists_eq_or_imp]
      constructor
      · rintro (⟨rfl, rfl⟩ | hh)
        · exact .inl ⟨h1, h2⟩
        · exact .inr hh
      · rintro (⟨e1, e2⟩ | hh)
        · rw [h1] at e1; rw [h2] at e2
          injection e1 with e1; injection e2 with e2
          exact .inl ⟨e1.symm, e2.symm⟩
        · exact .inr hh

/-- The problems of an evaluation directory that was empty before. -/
theorem fresh_problems {work : Dir C} {plan traj : String → C} {random : Bool} {tests : List String} {d : Dir C}
    (h : FoldData work plan traj random tests Dir.empty d) (hc : Complete work tests) (p : String) (k : Kind) (c : C) :
    d p k = some c ↔ (p ∈ tests ∧ work p k = some c) ∨ (random = true ∧ p ∉ tests ∧ ∃ q ∈ tests, p = randomName q ∧
      match k with
      | .problem => work q .problem = some c
      | .solution => plan q = c
      | .trajectory => traj q = c) := by
  by_cases hp : p ∈ tests
  · rw [h.copied p hp]
    simp [hp]
  · by_cases hr : random = true ∧ ∃ q ∈ tests, p = randomName q
    · obtain ⟨hr, q, hq, rfl⟩ := hr
      obtain ⟨w1, w2, w3⟩ := h.walked hr q hq hp rfl
      have uniq : ∀ q', randomName q = randomName q' → q' = q := fun q' e => (randomName_inj e).symm
      cases k
      · rw [w1]
        constructor
        · exact fun e => .inr ⟨hr, hp, q, hq, rfl, e⟩
        · rintro (⟨hh, -⟩ | ⟨-, -, q', -, e, hh⟩)
          · exact absurd hh hp
          · rw [uniq q' e] at hh; exact hh
      · rw [w2]
        constructor
        · exact fun e => .inr ⟨hr, hp, q, hq, rfl, by injection e⟩
        · rintro (⟨hh, -⟩ | ⟨-, -, q', -, e, hh⟩)
          · exact absurd hh hp
          · rw [uniq q' e] at hh; exact congrArg some hh
      · rw [w3]
        constructor
        · exact fun e => .inr ⟨hr, hp, q, hq, rfl, by injection e⟩
        · rintro (⟨hh, -⟩ | ⟨-, -, q', -, e, hh⟩)
          · exact absurd hh hp
          · rw [uniq q' e] at hh; exact congrArg some hh
    · rw [h.kept p hp (fun hr' q hq e => hr ⟨hr', q, hq, e⟩)]
      constructor
      · intro e; cases e
      · rintro (⟨hh, -⟩ | ⟨hr', -, q, hq, e, -⟩)
        · exact absurd hh hp
        · exact absurd ⟨hr', q, hq, e⟩ hr

theorem fresh_reading {work : Dir C} {plan traj : String → C} {random : Bool} {tests : List String} {pre : String} {d : Dir C}
    (h : FoldData work plan traj random (evaluated pre tests) Dir.empty d) (hc : Complete work (evaluated pre tests)) :
    (∃ listing, Lists pre d listing) ∧ ∀ listing, Lists pre d listing → ∃ r, readAll d listing = .ok r ∧
      ∀ text t, (text, t) ∈ r ↔ ∃ q ∈ evaluated pre tests, work q .problem = some text ∧
        (work q .trajectory = some t ∨ (random = true ∧ randomName q ∉ evaluated pre tests ∧ traj q = t)) := by
  have key := fresh_problems h hc
  have both : ∀ p, (∃ c, d p .problem = some c) → ∃ c, d p .trajectory = some c := by
    rintro p ⟨c, hcp⟩
    rcases (key p .problem c).mp hcp with ⟨hp, -⟩ | ⟨hr, hp, q, hq, e, -⟩
    · obtain ⟨t, ht⟩ := hc p hp .trajectory
      exact ⟨t, (key p .trajectory t).mpr (.inl ⟨hp, ht⟩)⟩
    · exact ⟨traj q, (key p .trajectory _).mpr (.inr ⟨hr, hp, q, hq, e, rfl⟩)⟩
  constructor
  · refine ⟨evaluated pre tests ++ (if random then ((evaluated pre tests).map randomName) else []), fun p => ?_⟩
    constructor
    · intro hp
      rcases List.mem_append.mp hp with hp | hp
      · obtain ⟨c, hcp⟩ := hc p hp .problem
        exact ⟨(mem_evaluated.mp hp).2, c, (key _ _ _).mpr (.inl ⟨hp, hcp⟩)⟩
      · by_cases hr : random = true
        · rw [if_pos hr] at hp
          obtain ⟨q, hq, rfl⟩ := List.mem_map.mp hp
          refine ⟨prefix_random (mem_evaluated.mp hq).2, ?_⟩
          by_cases hin : randomName q ∈ evaluated pre tests
          · obtain ⟨c, hcp⟩ := hc _ hin .problem
            exact ⟨c, (key _ _ _).mpr (.inl ⟨hin, hcp⟩)⟩
          · obtain ⟨c, hcp⟩ := hc q hq .problem
            exact ⟨c, (key _ _ _).mpr (.inr ⟨hr, hin, q, hq, rfl, hcp⟩)⟩
        · rw [if_neg hr] at hp
          cases hp
    · rintro ⟨-, c, hcp⟩
      rcases (key _ _ _).mp hcp with ⟨hp, -⟩ | ⟨hr, hp, q, hq, rfl, -⟩
      · exact List.mem_append.mpr (.inl hp)
      · rw [if_pos hr]
        exact List.mem_append.mpr (.inr (List.mem_map.mpr ⟨q, hq, rfl⟩))
  · intro listing hl
    obtain ⟨r, hr, hm⟩ := readAll_ok d listing (fun p hp => ⟨((hl p).mp hp).2, both p ((hl p).mp hp).2⟩)
    refine ⟨r, hr, fun text t => (hm text t).trans ?_⟩
    constructor
    · rintro ⟨p, -, h1, h2⟩
      rcases (key _ _ _).mp h1 with ⟨hp, h1⟩ | ⟨hr, hp, q, hq, e, h1⟩
      · rcases (key _ _ _).mp h2 with ⟨-, h2⟩ | ⟨-, hp', -⟩
        · exact ⟨p, hp, h1, .inl h2⟩
        · exact absurd hp hp'
      · rcases (key _ _ _).mp h2 with ⟨hp', -⟩ | ⟨-, -, q', -, e', h2⟩
        · exact absurd hp' hp
        · have : q' = q := randomName_inj (e'.symm.trans e)
          subst this
          exact ⟨q', hq, h1, .inr ⟨hr, e ▸ hp, h2⟩⟩
    · rintro ⟨q, hq, h1, h2 | ⟨hr, hp, h2⟩⟩
      · exact ⟨q, (hl q).mpr ⟨(mem_evaluated.mp hq).2, text, (key _ _ _).mpr (.inl ⟨hq, h1⟩)⟩, (key _ _ _).mpr (.inl ⟨hq, h1⟩),
          (key _ _ _).mpr (.inl ⟨hq, h2⟩)⟩
      · have e1 : d (randomName q) .problem = some text := (key _ _ _).mpr (.inr ⟨hr, hp, q, hq, rfl, h1⟩)
        exact ⟨randomName q, (hl _).mpr ⟨prefix_random (mem_evaluated.mp hq).2, text, e1⟩, e1,
          (key _ _ _).mpr (.inr ⟨hr, hp, q, hq, rfl, h2⟩)⟩

/-! ### C124 -/

/-- The test items of a fold. -/
def testsOf (items : List String) (splits : List Split) (f : Nat) : List String :=
  match splits[f]? with
  | some s => testItems items s
  | none => []

theorem testsOf_some {items : List String} {splits : List Split} {f : Nat} {s : Split} (h : splits[f]? = some s) :
    testsOf items splits f = testItems items s := by
  unfold testsOf
  rw [h]

theorem testItems_sub {items : List String} {s : Split} {q : String} (h : q ∈ testItems items s) : q ∈ items := by
  unfold testItems at h
  obtain ⟨i, -, hi⟩ := List.mem_filterMap.mp h
  exact List.mem_of_getElem? hi

theorem complete_sub {work : Dir C} {items : List String} (hc : Complete work items) {pre : String} {s : Split} :
    Complete work (evaluated pre (testItems items s)) := fun q hq => hc q (testItems_sub (mem_evaluated.mp hq).1)

/-- C124. The directories are created and then the evaluation data, for the first time. The data of every fold that the calculators read
are, in whatever order: every problem of the test set of the fold with the prefix, with its trajectory from the working directory, and, if
requested, with a random walk on it (unless the test set has a problem with the name of the walk). -/
theorem C124_data (E : Env C) (hord : Orders E) (domain pre : String) (hdom : ¬ pre.toList <+: domain.toList) (items : List String)
    (splits : List Split) (algs its : List Nat) (trip random : Bool) (disk : Model.Cluster.Disk) (conf : List Model.Cluster.FoldConf)
    (h : Model.Cluster.createFolds domain items splits algs (some its) trip [] = .ok (disk, conf)) (alg : Nat) (halg : alg ∈ algs)
    (hone : 1 ∈ its) (hc : Complete E.work items) (plan traj : Nat → String → C)
    (hw : ∀ f s, splits[f]? = some s → WalksOk E f (plan f) (traj f) (testItems items s)) :
    ∃ evals, create E domain pre alg (some its) random splits.length disk (fun _ => none) = (evals, none) ∧
      ∀ f s, splits[f]? = some s → ∃ d, evals f = some d ∧ (∃ listing, Lists pre d listing) ∧
        ∀ listing, Lists pre d listing → ∃ r, readAll d listing = .ok r ∧
          ∀ text t, (text, t) ∈ r ↔ ∃ q ∈ testItems items s, pre.toList <+: q.toList ∧ E.work q .problem = some text ∧
            (E.work q .trajectory = some t ∨ (random = true ∧ q ++ "_random_walk" ∉ testItems items s ∧ traj f q = t)) := by
  change ∃ evals, create E domain pre alg (some its) random splits.length disk (fun _ => none) = (evals, none) ∧
      ∀ f s, splits[f]? = some s → ∃ d, evals f = some d ∧ (∃ listing, Lists pre d listing) ∧
        ∀ listing, Lists pre d listing → ∃ r, readAll d listing = .ok r ∧
          ∀ text t, (text, t) ∈ r ↔ ∃ q ∈ testItems items s, pre.toList <+: q.toList ∧ E.work q .problem = some text ∧
            (E.work q .trajectory = some t ∨ (random = true ∧ randomName q ∉ testItems items s ∧ traj f q = t))
  obtain ⟨hfirst, -, -⟩ := Props.Cluster.C114_first domain items splits algs its trip disk conf h
  have get : ∀ f < splits.length, ∃ s, splits[f]? = some s := fun f hf => ⟨splits[f], List.getElem?_eq_getElem hf⟩
  obtain ⟨evals, he, h1, -⟩ := create_ok E hord domain pre hdom alg its random splits.length disk (fun _ => none) plan traj
    (testsOf items splits)
    (fun f hf => by
      obtain ⟨s, hs⟩ := get f hf
      rw [testsOf_some hs]
      exact (hfirst f s alg 1 hs halg hone).2)
    (fun f hf => by
      obtain ⟨s, hs⟩ := get f hf
      rw [testsOf_some hs]
      exact complete_sub hc)
    (fun _ f hf => by
      obtain ⟨s, hs⟩ := get f hf
      rw [testsOf_some hs]
      exact fun q hq => hw f s hs q (mem_evaluated.mp hq).1)
  refine ⟨evals, he, fun f s hs => ?_⟩
  have hf : f < splits.length := by
    by_contra hn
    rw [List.getElem?_eq_none (by omega)] at hs
    cases hs
  obtain ⟨d, hd, hfd⟩ := h1 f hf
  rw [testsOf_some hs] at hfd
  obtain ⟨hex, hread⟩ := fresh_reading hfd (complete_sub hc)
  refine ⟨d, hd, hex, fun listing hl => ?_⟩
  obtain ⟨r, hr, hm⟩ := hread listing hl
  refine ⟨r, hr, fun text t => (hm text t).trans ?_⟩
  constructor
  · rintro ⟨q, hq, e1, e2⟩
    obtain ⟨hq1, hq2⟩ := mem_evaluated.mp hq
    refine ⟨q, hq1, hq2, e1, e2.imp id (fun ⟨a, b, c⟩ => ⟨a, fun hin => b (mem_evaluated.mpr ⟨hin, prefix_random hq2⟩), c⟩)⟩
  · rintro ⟨q, hq1, hq2, e1, e2⟩
    exact ⟨q, mem_evaluated.mpr ⟨hq1, hq2⟩, e1, e2.imp id (fun ⟨a, b, c⟩ => ⟨a, fun hin => b (mem_evaluated.mp hin).1, c⟩)⟩

theorem train_test_disjoint {items : List String} (hnd : items.Nodup) {s : Split} {q : String} (hq : q ∈ testItems items s) :
    q ∉ trainItems items s := by
  unfold testItems at hq
  unfold trainItems
  obtain ⟨i, hi, hi'⟩ := List.mem_filterMap.mp hq
  intro hh
  obtain ⟨j, hj, hj'⟩ := List.mem_filterMap.mp hh
  obtain ⟨hj1, hj2⟩ := List.mem_filter.mp hj
  have : j = i := by
    have hj3 : j < items.length := List.mem_range.mp hj1
    exact (List.getElem?_inj hj3 hnd).mp (hj'.trans hi'.symm)
  subst this
  simp at hj2
  exact hj2 hi

/-- C124. No algorithm is evaluated on what it learned from: the problem and the trajectory of a test problem of the fold are in no
training directory of the fold, for no algorithm and no iteration. -/
theorem C124_separate (domain : String) (items : List String) (hnd : items.Nodup) (splits : List Split) (algs its : List Nat) (trip : Bool)
    (disk : Model.Cluster.Disk) (conf : List Model.Cluster.FoldConf)
    (h : Model.Cluster.createFolds domain items splits algs (some its) trip [] = .ok (disk, conf)) (f : Nat) (s : Split)
    (hs : splits[f]? = some s) (q : String) (hq : q ∈ testItems items s) (a n : Nat) (c : Finset File)
    (hcd : disk.train (jobName f a n) = some c) : (⟨q, .problem⟩ : File) ∉ c ∧ (⟨q, .trajectory⟩ : File) ∉ c := by
  obtain ⟨hfirst, hno, -⟩ := Props.Cluster.C114_first domain items splits algs its trip disk conf h
  have ha : a ∈ algs ∧ n ∈ its := by
    by_contra hn
    have := (hno f a n (by rcases not_and_or.mp hn with hh | hh; exacts [.inr (.inl hh), .inr (.inr hh)])).1
    rw [hcd] at this
    cases this
  obtain ⟨c', hc', hm⟩ := (hfirst f s a n hs ha.1 ha.2).1
  rw [hcd] at hc'
  injection hc' with hc'
  subst hc'
  have hnt : q ∉ (trainItems items s).take n := fun hh => train_test_disjoint hnd hq (List.mem_of_mem_take hh)
  constructor
  · intro hh
    rcases (hm _).mp hh with e | ⟨-, e⟩
    · cases e
    · exact hnt e
  · intro hh
    rcases (hm _).mp hh with e | ⟨-, e⟩
    · cases e
    · exact hnt e

/-- C124. A later creation from the saved settings, for whatever algorithms and requested iterations and with whatever random walks,
leaves the data of every fold as they are. -/
theorem C124_again (E : Env C) (hord : Orders E) (domain pre : String) (hdom : ¬ pre.toList <+: domain.toList) (items : List String)
    (splits : List Split) (hne : splits ≠ []) (algs its : List Nat) (trip random : Bool) (disk : Model.Cluster.Disk)
    (conf : List Model.Cluster.FoldConf)
    (h : Model.Cluster.createFolds domain items splits algs (some its) trip [] = .ok (disk, conf)) (alg : Nat) (halg : alg ∈ algs)
    (hone : 1 ∈ its) (hc : Complete E.work items) (plan traj : Nat → String → C)
    (hw : ∀ f s, splits[f]? = some s → WalksOk E f (plan f) (traj f) (testItems items s))
    (evals : Nat → Option (Dir C)) (he : (create E domain pre alg (some its) random splits.length disk (fun _ => none)).1 = evals)
    (E' : Env C) (hord' : Orders E') (hwork : E'.work = E.work) (items' : List String) (splits' : List Split) (algs' its' : List Nat)
    (trip' : Bool) (alg' : Nat) (halg' : alg' ∈ algs') (plan' traj' : Nat → String → C)
    (hw' : ∀ f s, splits[f]? = some s → WalksOk E' f (plan' f) (traj' f) (testItems items s)) :
    ∃ disk', Model.Cluster.createFolds domain items' splits' algs' (some its') trip' conf = .ok (disk', conf) ∧
      create E' domain pre alg' (some its') random splits.length disk' evals = (evals, none) := by
  obtain ⟨hfirst, -, -⟩ := Props.Cluster.C114_first domain items splits algs its trip disk conf h
  obtain ⟨disk', hd', hagain, -, -⟩ := Props.Cluster.C114_again domain items splits algs its trip disk conf h hne items' splits' algs' its' trip'
  have get : ∀ f < splits.length, ∃ s, splits[f]? = some s := fun f hf => ⟨splits[f], List.getElem?_eq_getElem hf⟩
  have hcf : ∀ f < splits.length, Complete E.work (evaluated pre (testsOf items splits f)) := fun f hf => by
      obtain ⟨s, hs⟩ := get f hf
      rw [testsOf_some hs]
      exact complete_sub hc
  obtain ⟨ev, hev, h1, h2⟩ := create_ok E hord domain pre hdom alg its random splits.length disk (fun _ => none) plan traj
    (testsOf items splits)
    (fun f hf => by
      obtain ⟨s, hs⟩ := get f hf
      rw [testsOf_some hs]
      exact (hfirst f s alg 1 hs halg hone).2) hcf
    (fun _ f hf => by
      obtain ⟨s, hs⟩ := get f hf
      rw [testsOf_some hs]
      exact fun q hq => hw f s hs q (mem_evaluated.mp hq).1)
  rw [hev] at he
  have he : ev = evals := he
  subst he
  obtain ⟨ev', hev', g1, g2⟩ := create_ok E' hord' domain pre hdom alg' its' random splits.length disk' ev plan' traj'
    (testsOf items splits)
    (fun f hf => by
      obtain ⟨s, hs⟩ := get f hf
      rw [testsOf_some hs]
      exact (hagain f s alg' 1 hs halg' hone).2)
    (fun f hf => by rw [hwork]; exact hcf f hf)
    (fun _ f hf => by
      obtain ⟨s, hs⟩ := get f hf
      rw [testsOf_some hs]
      exact fun q hq => hw' f s hs q (mem_evaluated.mp hq).1)
  refine ⟨disk', hd', ?_⟩
  rw [hev']
  have : ev' = ev := by
    funext f
    by_cases hf : f < splits.length
    · obtain ⟨d, hd, fd⟩ := h1 f hf
      obtain ⟨d', hd', fd'⟩ := g1 f hf
      rw [hd, hd']
      rw [hd, hwork] at fd'
      congr 1
      funext p k
      change FoldData E.work (plan' f) (traj' f) random _ d d' at fd'
      by_cases hp : p ∈ evaluated pre (testsOf items splits f)
      · rw [fd'.copied p hp, fd.copied p hp]
      · by_cases hr : random = true ∧ ∃ q ∈ evaluated pre (testsOf items splits f), p = randomName q
        · obtain ⟨hr, q, hq, rfl⟩ := hr
          exact fd'.keptWalk hr q hq hp (by rw [(fd.walked hr q hq hp rfl).2.2]; simp) k
        · exact fd'.kept p hp (fun hr' q hq e => hr ⟨hr', q, hq, e⟩) k
    · rw [g2 f (by omega)]
  rw [this]

/-- C124. The old data are not removed. If the evaluation directory of a fold holds a problem and its trajectory from an earlier creation, and
the folds are now made anew (the saved settings are gone) so that this problem is in the training set of the fold, then the learned domains of
the fold are evaluated on its trajectory, although every algorithm learns from it from some iteration on. -/
theorem C124_stale (E : Env C) (hord : Orders E) (domain pre : String) (hdom : ¬ pre.toList <+: domain.toList) (items : List String)
    (hnd : items.Nodup) (splits : List Split) (algs its : List Nat) (trip random : Bool) (disk : Model.Cluster.Disk)
    (conf : List Model.Cluster.FoldConf)
    (h : Model.Cluster.createFolds domain items splits algs (some its) trip [] = .ok (disk, conf)) (alg : Nat) (halg : alg ∈ algs)
    (hone : 1 ∈ its) (hc : Complete E.work items) (plan traj : Nat → String → C)
    (hw : ∀ f s, splits[f]? = some s → WalksOk E f (plan f) (traj f) (testItems items s))
    (evals : Nat → Option (Dir C)) (f : Nat) (s : Split) (hs : splits[f]? = some s) (old : Dir C) (hold : evals f = some old)
    (q : String) (hpre : pre.toList <+: q.toList) (hq : q ∈ trainItems items s) (hrn : ∀ p, q ≠ p ++ "_random_walk")
    (text t : C) (h1 : old q .problem = some text) (h2 : old q .trajectory = some t) :
    ∃ evals' d, create E domain pre alg (some its) random splits.length disk evals = (evals', none) ∧ evals' f = some d ∧
      (∀ listing r, Lists pre d listing → readAll d listing = .ok r → (text, t) ∈ r) ∧
      ∀ a n, a ∈ algs → n ∈ its → (trainItems items s).length ≤ n →
        ∃ c, disk.train (jobName f a n) = some c ∧ (⟨q, .trajectory⟩ : File) ∈ c := by
  obtain ⟨hfirst, -, -⟩ := Props.Cluster.C114_first domain items splits algs its trip disk conf h
  have get : ∀ f < splits.length, ∃ s, splits[f]? = some s := fun f hf => ⟨splits[f], List.getElem?_eq_getElem hf⟩
  obtain ⟨evals', he, g1, -⟩ := create_ok E hord domain pre hdom alg its random splits.length disk evals plan traj
    (testsOf items splits)
    (fun f hf => by
      obtain ⟨s, hs⟩ := get f hf
      rw [testsOf_some hs]
      exact (hfirst f s alg 1 hs halg hone).2)
    (fun f hf => by
      obtain ⟨s, hs⟩ := get f hf
      rw [testsOf_some hs]
      exact complete_sub hc)
    (fun _ f hf => by
      obtain ⟨s, hs⟩ := get f hf
      rw [testsOf_some hs]
      exact fun q hq => hw f s hs q (mem_evaluated.mp hq).1)
  have hf : f < splits.length := by
    by_contra hn
    rw [List.getElem?_eq_none (by omega)] at hs
    cases hs
  obtain ⟨d, hd, fd⟩ := g1 f hf
  rw [testsOf_some hs, hold] at fd
  change FoldData E.work (plan f) (traj f) random _ old d at fd
  have hnt : q ∉ evaluated pre (testItems items s) := fun hh => train_test_disjoint hnd (mem_evaluated.mp hh).1 hq
  have kept : ∀ k, d q k = old q k := fd.kept q hnt (fun _ p _ => hrn p)
  refine ⟨evals', d, he, hd, fun listing r hl hr => ?_, fun a n ha hn hlen => ?_⟩
  · have hmem : q ∈ listing := (hl q).mpr ⟨hpre, text, (kept _).trans h1⟩
    have hall : ∀ p ∈ listing, (∃ c, d p .problem = some c) ∧ ∃ c, d p .trajectory = some c := by
      clear hl hmem
      induction listing generalizing r with
      | nil => intro p hp; cases hp
      | cons x xs ih =>
        unfold readAll at hr
        cases hx1 : d x .problem with
        | none => rw [hx1] at hr; cases hr
        | some c1 =>
          cases hx2 : d x .trajectory with
          | none => rw [hx1, hx2] at hr; cases hr
          | some c2 =>
            rw [hx1, hx2] at hr
            simp only at hr
            cases hx3 : readAll d xs with
            | error e => rw [hx3] at hr; cases hr
            | ok l =>
              intro p hp
              rcases List.mem_cons.mp hp with rfl | hp
              · exact ⟨⟨c1, hx1⟩, c2, hx2⟩
              · exact ih l hx3 p hp
    obtain ⟨r', hr', hm⟩ := readAll_ok d listing hall
    rw [hr] at hr'
    injection hr' with hr'
    subst hr'
    exact (hm text t).mpr ⟨q, hmem, (kept _).trans h1, (kept _).trans h2⟩
  · obtain ⟨c, hcd, hm⟩ := (hfirst f s a n hs ha hn).1
    refine ⟨c, hcd, (hm _).mpr (.inr ⟨.inl rfl, ?_⟩)⟩
    rw [List.take_of_length_le hlen]
    exact hq

/-- C124. The test sets are read from the directories of iteration 1. If 1 is not among the iterations, the creation fails at the first fold,
before any data are made: a job of any fold then reads no observations at all. -/
theorem C124_iteration_one (E : Env C) (domain pre : String) (items : List String) (splits : List Split) (hne : splits ≠ [])
    (algs its : List Nat) (trip random : Bool) (disk : Model.Cluster.Disk) (conf : List Model.Cluster.FoldConf)
    (h : Model.Cluster.createFolds domain items splits algs (some its) trip [] = .ok (disk, conf)) (alg : Nat) (hone : 1 ∉ its) :
    ∃ evals, create E domain pre alg (some its) random splits.length disk (fun _ => none) = (evals, some .notADirectory) ∧
      ∀ f listing, Lists pre ((evals f).getD Dir.empty) listing → readAll ((evals f).getD Dir.empty) listing = .ok [] := by
  obtain ⟨-, hno, -⟩ := Props.Cluster.C114_first domain items splits algs its trip disk conf h
  have hnone := (hno 0 alg 1 (.inr (.inr hone))).2
  refine ⟨Function.update (fun _ => none) 0 (some Dir.empty), ?_, ?_⟩
  · unfold create
    cases splits with
    | nil => exact absurd rfl hne
    | cons s ss =>
      rw [List.length_cons]
      unfold folds
      have : disk.test ("fold_".toList ++ Results.num 0 ++ '_' :: Results.num alg ++ (if (some its).isSome then "_1".toList else [])) = none := hnone
      simp only [this]
      rfl
  · intro f listing hl
    have hempty : ((Function.update (fun _ => none) 0 (some Dir.empty) : Nat → Option (Dir C)) f).getD Dir.empty = Dir.empty := by
      by_cases hf : f = 0
      · subst hf; rw [Function.update_self]; rfl
      · rw [Function.update_of_ne hf]; rfl
    rw [hempty] at hl ⊢
    cases listing with
    | nil => rfl
    | cons x xs =>
      obtain ⟨-, c, hx⟩ := (hl x).mp (by simp)
      cases hx

/-- C124. A test problem without a solution in the working directory ends the creation with an exception. -/
theorem C124_missing_file (E : Env C) (hord : Orders E) (domain pre : String) (items : List String) (splits : List Split)
    (algs its : List Nat) (trip : Bool) (disk : Model.Cluster.Disk) (conf : List Model.Cluster.FoldConf)
    (h : Model.Cluster.createFolds domain items splits algs (some its) trip [] = .ok (disk, conf)) (alg : Nat) (halg : alg ∈ algs)
    (hone : 1 ∈ its) (f : Nat) (s : Split) (hs : splits[f]? = some s) (q : String) (hq : q ∈ testItems items s)
    (hpre : pre.toList <+: q.toList) (k : Kind) (hmiss : E.work q k = none) (evals : Nat → Option (Dir C)) :
    (create E domain pre alg (some its) false splits.length disk evals).2 ≠ none := by
  obtain ⟨hfirst, -, -⟩ := Props.Cluster.C114_first domain items splits algs its trip disk conf h
  obtain ⟨c, hcd, hm⟩ := (hfirst f s alg 1 hs halg hone).2
  have copy : ∀ (l : List String) (d : Dir C), q ∈ l → (copyLoop E.work l d).2 ≠ none := by
    intro l
    induction l with
    | nil => intro d hl; cases hl
    | cons p ps ih =>
      intro d hl
      unfold copyLoop copyFile
      cases h1 : E.work p .problem with
      | none => simp
      | some c1 =>
        cases h2 : E.work p .solution with
        | none => simp
        | some c2 =>
          cases h3 : E.work p .trajectory with
          | none => simp
          | some c3 =>
            simp only
            apply ih
            rcases List.mem_cons.mp hl with rfl | hl
            · cases k
              · rw [h1] at hmiss; cases hmiss
              · rw [h2] at hmiss; cases hmiss
              · rw [h3] at hmiss; cases hmiss
            · exact hl
  have main : ∀ (n start : Nat) (ev : Nat → Option (Dir C)) (td : Nat → Option (Finset File)), start ≤ f → f < start + n → td f = some c →
      (folds E domain pre false td start n ev).2 ≠ none := by
    intro n
    induction n with
    | zero => intro start ev td h1 h2; omega
    | succ n ih =>
      intro start ev td h1 h2 htd
      unfold folds
      cases hts : td start with
      | none => simp
      | some s' =>
        by_cases hf : start = f
        · subst hf
          rw [htd] at hts
          injection hts with hts
          subst hts
          have : (fillFold E.work (E.walk start) pre false (E.order (insert domain (problemStems c))) ((ev start).getD Dir.empty)).2 ≠ none := by
            unfold fillFold
            simp only [Bool.false_eq_true, if_false]
            apply copy
            rw [List.mem_filter, matching_iff]
            refine ⟨(hord _ _).mpr (Finset.mem_insert_of_mem ?_), hpre⟩
            exact Finset.mem_image.mpr ⟨⟨q, .problem⟩, (hm _).mpr ⟨rfl, hq⟩, rfl⟩
          simp only
          split
          · simp
          · rename_i heq
            exact absurd heq this
        · simp only
          split
          · simp
          · exact ih _ _ _ (by omega) (by omega) htd
  unfold create
  have hf : f < splits.length := by
    by_contra hn
    rw [List.getElem?_eq_none (by omega)] at hs
    cases hs
  exact main splits.length 0 evals _ (by omega) (by omega) hcd

/-! ### A case: five problems, two folds, walks -/

/-- The files of the sample. -/
def sampleWork : Dir String := fun p k => if p ∈ ["pa", "pb", "pc", "pd", "pe"] then
  some (match k with | .problem => p ++ ".pddl" | .solution => p ++ ".solution" | .trajectory => p ++ ".trajectory") else none

/-- The sample, with walks that succeed. -/
noncomputable def sampleEnv : Env String := ⟨sampleWork, fun _ p _ => .ok (p ++ " plan", .ok (p ++ " walk")), Finset.toList⟩

example : Orders sampleEnv := fun _ _ => Finset.mem_toList

example : ¬ "p".toList <+: "domain".toList ∧ ["pa", "pb", "pc", "pd", "pe"].Nodup := by decide

example : Complete sampleEnv.work ["pa", "pb", "pc", "pd", "pe"] := by
  intro q hq k
  exact ⟨_, if_pos hq⟩

example : ∀ f s, Props.Cluster.sampleSplits[f]? = some s →
    WalksOk sampleEnv f (fun p => p ++ " plan") (fun p => p ++ " walk") (testItems ["pa", "pb", "pc", "pd", "pe"] s) :=
  fun _ _ _ _ _ _ _ => rfl

example : ∃ disk conf, Model.Cluster.createFolds "domain" ["pa", "pb", "pc", "pd", "pe"] Props.Cluster.sampleSplits [3, 15] (some [1, 2]) true []
    = .ok (disk, conf) := ⟨_, _, rfl⟩

example : testItems ["pa", "pb", "pc", "pd", "pe"] ⟨[2, 3, 4], [0, 1]⟩ = ["pa", "pb"] ∧
    trainItems ["pa", "pb", "pc", "pd", "pe"] ⟨[2, 3, 4], [0, 1]⟩ = ["pc", "pd", "pe"] := by decide

/-- An evaluation directory of an earlier split, in which `pc` was a test problem. -/
def sampleOld : Dir String := fun p k => if p = "pc" then sampleWork p k else none

example : sampleOld "pc" .problem = some "pc.pddl" ∧ sampleOld "pc" .trajectory = some "pc.trajectory" ∧ ∀ p, "pc" ≠ randomName p := by
  refine ⟨by decide, by decide, fun p h => ?_⟩
  have := congrArg (fun s : String => s.toList.length) h
  unfold randomName at this
  simp only [String.toList_append, List.length_append] at this
  have e1 : "pc".toList.length = 2 := by decide
  have e2 : "_random_walk".toList.length = 12 := by decide
  omega

end Evaluation
end Props
