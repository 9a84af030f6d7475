import Verif.Spec.Mining
import Mathlib.Tactic.Linarith

/-! C127: jobs that run PlanMiner on one machine, under every schedule. -/
namespace Props
namespace PlanMinerRun
open Model.PlanMinerRun Spec.Mining
open Model.Results (Name)
open Spec.Jobs (Text)

section
variable {Dom : Type} {parse : Text → Option Dom} {empty : Dom} {jobs : Nat → Job}

/-- The answer computed from the output file. -/
theorem result_answer {m : Machine Dom} {since j k : Nat} (h : m.files (jobs j).out = ((jobs j).drafts.take k).getLast?) :
    Answer parse empty ((jobs j).drafts.take k) (m.now - since) (result parse empty jobs m since j) := by
  unfold result
  rw [h]
  constructor
  · intro e; rw [e]; exact ⟨rfl, rfl⟩
  · intro t ht
    rw [ht]
    refine ⟨rfl, ?_⟩
    cases hp : parse t with
    | none => exact Or.inr ⟨rfl, by simp [hp]⟩
    | some d => exact Or.inl ⟨d, rfl, by simp [hp]⟩

/-- What is known of job `j`: `c` tells that its process, once it has ended, has written everything. -/
def Known (parse : Text → Option Dom) (empty : Dom) (jobs : Nat → Job) (c : Prop) (m : Machine Dom) (j : Nat) : Prop :=
  match m.phase j with
  | .idle => m.files (jobs j).out = none
  | .alive since k => since ≤ m.now ∧ k ≤ (jobs j).drafts.length ∧ m.files (jobs j).out = ((jobs j).drafts.take k).getLast?
  | .ended since => since ≤ m.now ∧ ∃ k ≤ (jobs j).drafts.length, (c → k = (jobs j).drafts.length) ∧
      m.files (jobs j).out = ((jobs j).drafts.take k).getLast?
  | .done r => ∃ k ≤ (jobs j).drafts.length, (c → k = (jobs j).drafts.length) ∧
      ∃ e ≤ m.now, Answer parse empty ((jobs j).drafts.take k) e r

theorem take_succ_last {l : List Text} {k : Nat} {t : Text} (h : l[k]? = some t) : (l.take (k + 1)).getLast? = some t := by
  rw [List.take_succ, h]; simp

theorem known_finish {c : Prop} {m : Machine Dom} {i j since : Nat} (hinj : ∀ i j, (jobs i).out = (jobs j).out → i = j)
    (hi : ∃ k ≤ (jobs i).drafts.length, (c → k = (jobs i).drafts.length) ∧ m.files (jobs i).out = ((jobs i).drafts.take k).getLast?)
    (hj : i ≠ j → Known parse empty jobs c m j) : Known parse empty jobs c (finish parse empty jobs m since i) j := by
  by_cases e : i = j
  · subst e
    obtain ⟨k, h1, h2, h3⟩ := hi
    simp only [Known, finish, Function.update_self]
    exact ⟨k, h1, h2, m.now - since, Nat.sub_le _ _, result_answer h3⟩
  · have hne : (jobs j).out ≠ (jobs i).out := fun h => e (hinj _ _ h).symm
    have := hj e
    simpa only [Known, finish, Function.update_of_ne (Ne.symm e), Function.update_of_ne hne] using this

theorem known_killAll {m : Machine Dom} {j : Nat} (h : Known parse empty jobs False m j) : Known parse empty jobs False (killAll m) j := by
  unfold Known at h
  simp only [Known, killAll]
  cases hp : m.phase j with
  | alive s k => rw [hp] at h; exact ⟨h.1, k, h.2.1, False.elim, h.2.2⟩
  | _ => rw [hp] at h; exact h

/-- Every event keeps what is known of a job; a timeout keeps it with `c` false only. -/
theorem known_step {c : Prop} {m m' : Machine Dom} {e : Event} (hinj : ∀ i j, (jobs i).out = (jobs j).out → i = j)
    (hc : c → ∀ i, e ≠ .timeout i) (hc' : ¬ c ∨ ∀ i, e ≠ .timeout i) (hall : ∀ j, Known parse empty jobs False m j)
    {j : Nat} (h : Known parse empty jobs c m j) (hs : step parse empty jobs m e = some m') : Known parse empty jobs c m' j := by
  cases e with
  | tick =>
    simp only [step, Option.some.injEq] at hs; subst hs
    unfold Known at h ⊢
    dsimp only
    cases hp : m.phase j with
    | idle => rw [hp] at h; exact h
    | alive s k => rw [hp] at h; exact ⟨by have := h.1; omega, h.2⟩
    | ended s => rw [hp] at h; exact ⟨by have := h.1; omega, h.2⟩
    | done r => rw [hp] at h; obtain ⟨k, h1, h2, e, h3, h4⟩ := h; exact ⟨k, h1, h2, e, by omega, h4⟩
  | start i =>
    simp only [step] at hs
    split at hs
    · rename_i hp
      simp only [Option.some.injEq] at hs; subst hs
      by_cases e : i = j
      · subst e
        unfold Known at h
        rw [hp] at h
        simp only [Known, Function.update_self]
        exact ⟨le_refl _, Nat.zero_le _, by simpa using h⟩
      · simpa only [Known, Function.update_of_ne (Ne.symm e)] using h
    · cases hs
  | write i =>
    simp only [step] at hs
    split at hs
    · rename_i since k hp
      split at hs
      · rename_i t ht
        simp only [Option.some.injEq] at hs; subst hs
        by_cases e : i = j
        · subst e
          unfold Known at h
          rw [hp] at h
          simp only [Known, Function.update_self]
          have := (List.getElem?_eq_some_iff.mp ht).1
          exact ⟨h.1, this, (take_succ_last ht).symm⟩
        · have hne : (jobs j).out ≠ (jobs i).out := fun h => e (hinj _ _ h).symm
          simpa only [Known, Function.update_of_ne (Ne.symm e), Function.update_of_ne hne] using h
      · cases hs
    · cases hs
  | exit i =>
    simp only [step] at hs
    split at hs
    · rename_i since k hp
      split at hs
      · rename_i hk
        simp only [Option.some.injEq] at hs; subst hs
        by_cases e : i = j
        · subst e
          unfold Known at h
          rw [hp] at h
          simp only [Known, Function.update_self]
          exact ⟨h.1, k, h.2.1, fun _ => hk, h.2.2⟩
        · simpa only [Known, Function.update_of_ne (Ne.symm e)] using h
      · cases hs
    · cases hs
  | timeout i =>
    have hnc : ¬ c := fun k => hc k i rfl
    simp only [step] at hs
    split at hs
    · rename_i since k hp
      split at hs
      · simp only [Option.some.injEq] at hs; subst hs
        have hi := hall i
        unfold Known at hi
        rw [hp] at hi
        refine known_finish hinj ⟨k, hi.2.1, fun a => absurd a hnc, hi.2.2⟩ fun _ => ?_
        have hcf : c = False := by simp [hnc]
        rw [hcf]
        exact known_killAll (hall j)
      · cases hs
    · cases hs
  | collect i =>
    simp only [step] at hs
    split at hs
    · rename_i since hp
      simp only [Option.some.injEq] at hs; subst hs
      by_cases e : i = j
      · subst e
        unfold Known at h
        rw [hp] at h
        exact known_finish hinj h.2 fun e => absurd rfl e
      · have hi := hall i
        unfold Known at hi
        rw [hp] at hi
        have hne : (jobs j).out ≠ (jobs i).out := fun h => e (hinj _ _ h).symm
        simpa only [Known, finish, Function.update_of_ne (Ne.symm e), Function.update_of_ne hne] using h
    · cases hs

theorem known_run (hinj : ∀ i j, (jobs i).out = (jobs j).out → i = j) : ∀ (es : List Event) {m m' : Machine Dom},
    (∀ j, Known parse empty jobs False m j) → run parse empty jobs m es = some m' → ∀ j, Known parse empty jobs False m' j
  | [], _, _, h, hr => by simp only [run, Option.some.injEq] at hr; subst hr; exact h
  | e :: es, m, m', h, hr => by
    simp only [run, Option.bind_eq_some_iff] at hr
    obtain ⟨m1, h1, h2⟩ := hr
    exact known_run hinj es (fun j => known_step hinj False.elim (Or.inl id) h (h j) h1) h2

theorem known_quiet (hinj : ∀ i j, (jobs i).out = (jobs j).out → i = j) {j : Nat} : ∀ (es : List Event) {m m' : Machine Dom},
    (∀ j, Known parse empty jobs False m j) → (∀ i, Event.timeout i ∉ es) → Known parse empty jobs True m j →
    run parse empty jobs m es = some m' → Known parse empty jobs True m' j
  | [], _, _, _, _, h, hr => by simp only [run, Option.some.injEq] at hr; subst hr; exact h
  | e :: es, m, m', hall, ht, h, hr => by
    simp only [run, Option.bind_eq_some_iff] at hr
    obtain ⟨m1, h1, h2⟩ := hr
    have hne : ∀ i, e ≠ .timeout i := fun i he => ht i (by simp [he])
    exact known_quiet hinj es (fun j => known_step hinj False.elim (Or.inl id) hall (hall j) h1)
      (fun i hi => ht i (by simp [hi])) (known_step hinj (fun _ => hne) (Or.inr hne) hall h h1) h2

theorem run_append : ∀ (es fs : List Event) (m : Machine Dom),
    run parse empty jobs m (es ++ fs) = (run parse empty jobs m es).bind fun m' => run parse empty jobs m' fs
  | [], _, _ => rfl
  | e :: es, fs, m => by
    simp only [List.cons_append, run]
    cases step parse empty jobs m e with
    | none => rfl
    | some m1 => exact run_append es fs m1

theorem known_initial (j : Nat) : Known parse empty jobs False (initial : Machine Dom) j := rfl

/-- **C127, a job answers for its own process.** After any events, a job that has returned answers for some beginning of what its own process writes:
never for the process of another job. The time is at most the time that has passed. -/
theorem C127_own_output (hinj : ∀ i j, (jobs i).out = (jobs j).out → i = j) {es : List Event} {m : Machine Dom}
    (hr : run parse empty jobs initial es = some m) {j : Nat} {r : Result Dom} (hd : m.phase j = .done r) :
    ∃ k ≤ (jobs j).drafts.length, ∃ t ≤ m.now, Answer parse empty ((jobs j).drafts.take k) t r := by
  have := known_run hinj es known_initial hr j
  unfold Known at this
  rw [hd] at this
  obtain ⟨k, h1, _, h2⟩ := this
  exact ⟨k, h1, h2⟩

/-- **C127, undisturbed jobs.** If no job of the machine times out after the job has started PlanMiner, it answers for the complete output. -/
theorem C127_undisturbed (hinj : ∀ i j, (jobs i).out = (jobs j).out → i = j) {before after : List Event} {j : Nat} {m : Machine Dom}
    (hr : run parse empty jobs initial (before ++ .start j :: after) = some m) (hno : ∀ i, Event.timeout i ∉ after)
    {r : Result Dom} (hd : m.phase j = .done r) : ∃ t ≤ m.now, Answer parse empty (jobs j).drafts t r := by
  rw [run_append, Option.bind_eq_some_iff] at hr
  obtain ⟨m1, h1, h2⟩ := hr
  simp only [run, Option.bind_eq_some_iff] at h2
  obtain ⟨m2, h3, h4⟩ := h2
  have k1 := known_run hinj before known_initial h1
  have k2 : ∀ i, Known parse empty jobs False m2 i := fun i => known_step hinj False.elim (Or.inl id) k1 (k1 i) h3
  have k3 : Known parse empty jobs True m2 j := by
    have := k2 j
    simp only [step] at h3
    split at h3
    · simp only [Option.some.injEq] at h3; subst h3
      simp only [Known, Function.update_self] at this ⊢
      exact this
    · cases h3
  have := known_quiet hinj after k2 hno k3 h4
  unfold Known at this
  rw [hd] at this
  obtain ⟨k, _, hk, t, ht, ha⟩ := this
  rw [hk trivial, List.take_length] at ha
  exact ⟨t, ht, ha⟩

/-- **C127, the cause of a failure.** A job whose process, left alone, writes a domain, and that does not return this domain, was disturbed: some job
of the machine, itself or another one, timed out after it had started. -/
theorem C127_failure_cause (hinj : ∀ i j, (jobs i).out = (jobs j).out → i = j) {before after : List Event} {j : Nat} {m : Machine Dom}
    (hr : run parse empty jobs initial (before ++ .start j :: after) = some m) {t : Text} (ht : (jobs j).drafts.getLast? = some t)
    {d : Dom} (hp : parse t = some d) {r : Result Dom} (hd : m.phase j = .done r) (hne : r.domain ≠ d ∨ r.time = -1) :
    ∃ i, Event.timeout i ∈ after := by
  by_contra hno
  push Not at hno
  obtain ⟨e, _, _, ha⟩ := C127_undisturbed hinj hr hno hd
  obtain ⟨h1, h2⟩ := ha t ht
  rcases h2 with ⟨d', h2, h3⟩ | ⟨h2, _⟩
  · rw [hp] at h2; cases h2
    rcases hne with h | h
    · exact h h3
    · omega
  · rw [hp] at h2; cases h2

/-- **C127, one timeout ends all.** When a job times out, no PlanMiner process of the machine is left; the job itself has returned. -/
theorem C127_timeout_ends_all {m m' : Machine Dom} {j : Nat} (h : step parse empty jobs m (.timeout j) = some m') :
    (∀ i since k, m'.phase i ≠ .alive since k) ∧ ∃ r, m'.phase j = .done r := by
  simp only [step] at h
  split at h
  · split at h
    · simp only [Option.some.injEq] at h; subst h
      refine ⟨fun i since k hi => ?_, _, by simp only [finish, Function.update_self]; rfl⟩
      by_cases e : i = j
      · subst e; simp [finish] at hi
      · simp only [finish, killAll, Function.update_of_ne e] at hi
        cases hp : m.phase i <;> simp [hp] at hi
    · cases h
  · cases h

/-- **C127, the time of a timeout.** A job that times out reports -1, or a time of at least half an hour together with what its process had written: it
is then not distinguished from a job that has finished. -/
theorem C127_timeout_answer (hinj : ∀ i j, (jobs i).out = (jobs j).out → i = j) {es : List Event} {j : Nat} {m : Machine Dom}
    (hr : run parse empty jobs initial (es ++ [.timeout j]) = some m) :
    ∃ r, m.phase j = .done r ∧ ∃ k ≤ (jobs j).drafts.length, ∃ t, 1800 ≤ t ∧ Answer parse empty ((jobs j).drafts.take k) t r := by
  rw [run_append, Option.bind_eq_some_iff] at hr
  obtain ⟨m1, h1, h2⟩ := hr
  simp only [run, Option.bind_some, Option.bind_eq_some_iff] at h2
  obtain ⟨m2, h3, h4⟩ := h2
  cases h4
  have hk := known_run hinj es known_initial h1 j
  simp only [step] at h3
  split at h3
  · rename_i since k hp
    split at h3
    · rename_i hto
      simp only [Option.some.injEq] at h3; subst h3
      unfold Known at hk
      rw [hp] at hk
      refine ⟨_, by simp only [finish, Function.update_self]; rfl, k, hk.2.1, m1.now - since, by unfold learningTimeout at hto; omega, ?_⟩
      exact result_answer (m := killAll m1) hk.2.2
    · cases h3
  · cases h3

/-- **C127, no output stays.** The output of a job that has returned is no longer in the directory of PlanMiner. -/
theorem C127_output_moved (hinj : ∀ i j, (jobs i).out = (jobs j).out → i = j) {es : List Event} {m : Machine Dom}
    (hr : run parse empty jobs initial es = some m) {j : Nat} {r : Result Dom} (hd : m.phase j = .done r) : m.files (jobs j).out = none := by
  have key : ∀ (es : List Event) (m m' : Machine Dom), (∀ i, (m.phase i = .idle ∨ ∃ r, m.phase i = .done r) → m.files (jobs i).out = none) →
      run parse empty jobs m es = some m' → ∀ i, (m'.phase i = .idle ∨ ∃ r, m'.phase i = .done r) → m'.files (jobs i).out = none := by
    intro es
    induction es with
    | nil => intro m m' h hr; cases hr; exact h
    | cons e es ih =>
      intro m m' h hr
      simp only [run, Option.bind_eq_some_iff] at hr
      obtain ⟨m1, h1, h2⟩ := hr
      refine ih m1 m' ?_ h2
      have hfin : ∀ (m2 : Machine Dom) since j, (∀ i, i ≠ j → (m2.phase i = .idle ∨ ∃ r, m2.phase i = .done r) → m2.files (jobs i).out = none) →
          ∀ i, ((finish parse empty jobs m2 since j).phase i = .idle ∨ ∃ r, (finish parse empty jobs m2 since j).phase i = .done r) →
            (finish parse empty jobs m2 since j).files (jobs i).out = none := by
        intro m2 since j hm i hi
        by_cases e : i = j
        · subst e; exact Function.update_self _ _ _
        · have e' : (jobs i).out ≠ (jobs j).out := fun h => e (hinj _ _ h)
          refine (Function.update_of_ne e' _ _).trans (hm i e ?_)
          simpa only [finish, Function.update_of_ne e] using hi
      cases e with
      | tick => cases h1; exact h
      | start j =>
        simp only [step] at h1
        split at h1 <;> cases h1
        intro i hi
        by_cases e : i = j
        · subst e; simp [Function.update_self] at hi
        · exact h i (by simpa only [Function.update_of_ne e] using hi)
      | write j =>
        simp only [step] at h1
        split at h1
        · split at h1 <;> cases h1
          intro i hi
          by_cases e : i = j
          · subst e; simp [Function.update_self] at hi
          · exact (Function.update_of_ne (fun h => e (hinj _ _ h)) _ _).trans (h i (by simpa only [Function.update_of_ne e] using hi))
        · cases h1
      | exit j =>
        simp only [step] at h1
        split at h1
        · split at h1 <;> cases h1
          intro i hi
          by_cases e : i = j
          · subst e; simp [Function.update_self] at hi
          · exact h i (by simpa only [Function.update_of_ne e] using hi)
        · cases h1
      | timeout j =>
        simp only [step] at h1
        split at h1
        · split at h1 <;> cases h1
          refine hfin _ _ _ ?_
          intro i _ hi
          refine h i ?_
          simp only [killAll] at hi
          split at hi
          · simp at hi
          · exact hi
        · cases h1
      | collect j =>
        simp only [step] at h1
        split at h1 <;> cases h1
        exact hfin _ _ _ fun i _ hi => h i hi
  exact key es _ _ (fun _ _ => rfl) hr j (.inr ⟨r, hd⟩)

/-- **C127, no job is stuck.** After any events, a job that has started PlanMiner can still return. -/
theorem C127_can_return (m : Machine Dom) (j : Nat) (hj : ∃ since, (∃ k ≤ (jobs j).drafts.length, m.phase j = .alive since k) ∨ m.phase j = .ended since) :
    ∃ es m' r, run parse empty jobs m es = some m' ∧ m'.phase j = .done r := by
  have hcol : ∀ (m : Machine Dom) since, m.phase j = .ended since → ∃ es m' r, run parse empty jobs m es = some m' ∧ m'.phase j = .done r := by
    intro m since h
    refine ⟨[.collect j], finish parse empty jobs m since j, _, ?_, by simp only [finish, Function.update_self]; rfl⟩
    simp only [run, step, h, Option.bind_some]
  obtain ⟨since, ⟨k, hk, hp⟩ | hp⟩ := hj
  · obtain ⟨n, hn⟩ := Nat.exists_eq_add_of_le hk
    induction n generalizing m k with
    | zero =>
      have hk' : k = (jobs j).drafts.length := by omega
      have hs : step parse empty jobs m (.exit j) = some { m with phase := Function.update m.phase j (.ended since) } := by
        simp only [step, hp, if_pos hk']
      obtain ⟨es, m', r, h1, h2⟩ := hcol { m with phase := Function.update m.phase j (.ended since) } since (by simp)
      exact ⟨.exit j :: es, m', r, by simp only [run, hs, Option.bind_some]; exact h1, h2⟩
    | succ n ih =>
      have hlt : k < (jobs j).drafts.length := by omega
      have hg : (jobs j).drafts[k]? = some (jobs j).drafts[k] := List.getElem?_eq_getElem hlt
      have hs : step parse empty jobs m (.write j) = some (⟨m.now, Function.update m.phase j (.alive since (k + 1)),
          Function.update m.files (jobs j).out (some (jobs j).drafts[k])⟩ : Machine Dom) := by
        simp only [step, hp, hg]
      obtain ⟨es, m', r, h1, h2⟩ := ih (⟨m.now, Function.update m.phase j (.alive since (k + 1)),
          Function.update m.files (jobs j).out (some (jobs j).drafts[k])⟩ : Machine Dom) (k + 1) hlt (by simp) (by omega)
      exact ⟨.write j :: es, m', r, by simp only [run, hs, Option.bind_some]; exact h1, h2⟩
  · exact hcol m since hp

end

/-! ### Paths -/
section
open Model.WorkingDir (Abs Path)

theorem at_absolute {p : Path} (h : p.absolute = true) (a b : Abs) : p.at a = p.at b := by simp [Path.at, h]
theorem child_absolute {p : Path} (h : p.absolute = true) (n : Name) : (p.child n).absolute = true := h

/-- **C127, absolute directories.** If all directories are given as absolute paths, the job opens the files it means. -/
theorem C127_absolute (S : Dirs) (h1 : S.miner.absolute = true) (h2 : S.workdir.absolute = true) (h3 : S.test.absolute = true)
    (h4 : S.working.absolute = true) (out : Name) (ex : Bool) (cwd : Abs) : opens S out ex cwd = meant S out ex cwd := by
  have k1 : ∀ n a b, (S.miner.child n).at a = (S.miner.child n).at b := fun n a b => at_absolute (child_absolute h1 n) a b
  have k2 : ∀ n a b, (S.workdir.child n).at a = (S.workdir.child n).at b := fun n a b => at_absolute (child_absolute h2 n) a b
  have k3 : ∀ n a b, (S.test.child n).at a = (S.test.child n).at b := fun n a b => at_absolute (child_absolute h3 n) a b
  have k4 : ∀ n n' a b, ((S.working.child n).child n').at a = ((S.working.child n).child n').at b :=
    fun n n' a b => at_absolute (child_absolute (child_absolute h4 n) n') a b
  unfold opens meant
  dsimp only
  rw [k1 _ (S.miner.at cwd) cwd, k2 _ (S.miner.at cwd) cwd, k2 _ (S.miner.at cwd) cwd, k3 _ (S.miner.at cwd) cwd, k4 _ _ (S.miner.at cwd) cwd]

/-- **C127, a relative directory of PlanMiner.** PlanMiner writes its output to the directory in which it was started; if this directory was
given by a non-empty relative path, the job looks for the output elsewhere, and does not find it whatever PlanMiner writes. -/
theorem C127_relative_miner (S : Dirs) (h : S.miner.absolute = false) (hne : S.miner.parts ≠ []) (out : Name) (ex : Bool) (cwd : Abs) :
    (opens S out ex cwd)[1]? ≠ some (S.miner.at cwd ++ [out ++ ".pddl".toList]) := by
  unfold opens
  generalize ".pddl".toList = x
  simp only [List.cons_append, List.nil_append, List.getElem?_cons_succ, List.getElem?_cons_zero, ne_eq, Option.some.injEq]
  intro e
  have := congrArg List.length e
  simp only [Path.at, Path.child, h] at this
  simp only [Bool.false_eq_true, if_false, List.length_append, List.length_cons, List.length_nil] at this
  have h0 : S.miner.parts.length = 0 := by omega
  exact hne (List.eq_nil_of_length_eq_zero h0)

/-- **C127, a relative working directory.** If the directory of PlanMiner is absolute and that of the job relative, the job looks for the domain of
PlanMiner and for the trajectories below the directory of PlanMiner; these are the files meant only if the job was started there. -/
theorem C127_relative_workdir (S : Dirs) (h1 : S.miner.absolute = true) (h2 : S.workdir.absolute = false) (out : Name) (ex : Bool) (cwd : Abs)
    (hne : cwd ≠ S.miner.parts) : (opens S out ex cwd)[0]? ≠ (meant S out ex cwd)[0]? := by
  unfold opens meant
  generalize "plan_miner_trajectories.pts".toList = x
  simp only [List.cons_append, List.nil_append, List.getElem?_cons_zero, ne_eq, Option.some.injEq]
  intro e
  simp only [Path.at, Path.child, h1, h2, if_true, Bool.false_eq_true, if_false] at e
  exact hne (List.append_cancel_right e).symm

end

/-! ### Concrete schedules -/
namespace Case

/-- Two jobs. The first process writes nothing for a long time; the second one writes a header, then the complete domain. The text "ok" is a domain with
two actions, the text "half" one with a single action, "no" is not a domain. -/
def jobs : Nat → Job
  | 0 => ⟨['a'], ["half".toList, "ok".toList]⟩
  | 1 => ⟨['b'], ["no".toList, "ok".toList]⟩
  | n + 2 => ⟨'c' :: List.replicate n 'c', []⟩
def parse (t : Text) : Option (List String) :=
  if t = "ok".toList then some ["go", "stop"] else if t = "half".toList then some ["go"] else none

theorem distinct : ∀ i j, (jobs i).out = (jobs j).out → i = j := by
  rintro (_ | _ | i) (_ | _ | j) h <;> simp_all [jobs]

def wait : Nat → List Event
  | 0 => []
  | n + 1 => .tick :: wait n

def outcome (es : List Event) (j : Nat) : Option (List String × Int) :=
  match run parse [] jobs initial es with
  | some m => match m.phase j with
    | .done r => some (r.domain, r.time)
    | _ => none
  | none => none

/-- Undisturbed: both jobs run at the same time, and each returns what its own process wrote. -/
def quiet : List Event := [.start 0, .tick, .start 1, .write 1, .write 0, .tick, .write 0, .write 1, .exit 1, .exit 0, .collect 0, .tick, .collect 1]

example : outcome quiet 0 = some (["go", "stop"], 2) ∧ outcome quiet 1 = some (["go", "stop"], 2) := by decide +kernel
example : ∃ before after, quiet = before ++ .start 1 :: after ∧ ∀ i, Event.timeout i ∉ after := ⟨[.start 0, .tick], _, rfl, by simp⟩

/-- A job that has run for ten seconds when another one times out. -/
def disturbed (k : List Event) : List Event := [.start 0, .write 0] ++ wait 1790 ++ [.start 1] ++ k ++ wait 10 ++ [.timeout 0, .collect 1]

/-- **C127, another job's timeout.** The second process would have written a domain; ten seconds after its start the first job times out. The second
job reports a failure with the learning time -1, or, if its process had begun to write, a domain without actions and the ten seconds. The
first job returns the incomplete domain its process had written, as if it had finished. -/
theorem C127_other_job_fails :
    outcome (disturbed []) 1 = some ([], -1) ∧ outcome (disturbed [.write 1]) 1 = some ([], 10) ∧
    outcome (disturbed []) 0 = some (["go"], 1800) ∧ parse "ok".toList = some ["go", "stop"] ∧
    (jobs 0).drafts.getLast? = some "ok".toList ∧ (jobs 1).drafts.getLast? = some "ok".toList := by
  decide +kernel

/-- A job whose process writes nothing fails with the time -1, undisturbed. -/
example : outcome [.start 2, .tick, .exit 2, .collect 2] 2 = some ([], -1) := by decide +kernel

open Model.WorkingDir in
/-- Directories given as relative paths meet the hypotheses of the theorems on them. -/
def dirs : Dirs :=
  { miner := ⟨false, [['m']]⟩, workdir := ⟨true, [['w']]⟩, test := ⟨true, [['t']]⟩, working := ⟨true, [['x']]⟩, minerDomain := ['d'], domain := ['e'] }
example : dirs.miner.absolute = false ∧ dirs.miner.parts ≠ [] := by decide

end Case
end PlanMinerRun
end Props
