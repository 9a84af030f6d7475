import Verif.Lemmas.SolverJobs

/-! C136: solver jobs at the same time on one directory, killed at any moment. -/
namespace Props
namespace SolverJobs
open Model.SolverJobs Spec.SolverJobs
open Spec.Jobs (Planner)
open Spec (Outcome)

variable {W : World} {C : Cluster} {files : String → Option Text} {es : List Event} {js : Jobs} {p : String}

/-- The job of another problem, with the same planner on the same machine, runs out of time in the history. -/
def Disturbed (C : Cluster) (p : String) (es : List Event) : Prop :=
  ∃ e ∈ es, e.1 ≠ p ∧ e.2 = .timeout ∧ C.planner e.1 = C.planner p ∧ C.machine e.1 = C.machine p

/-- What of a history concerns the job of `p`: its own acts, and the timeouts that kill its planner. -/
def view (C : Cluster) (p : String) (es : List Event) : List Act :=
  es.filterMap fun e =>
    if e.1 = p then some e.2
    else if e.2 = .timeout ∧ C.planner e.1 = C.planner p ∧ C.machine e.1 = C.machine p then some .hit
    else none

theorem view_eq : view C p es = es.filterMap (seen C p) := rfl

theorem hit_iff (h : run W C (initial files) es = some js) : Act.hit ∈ es.filterMap (seen C p) ↔ Disturbed C p es := by
  constructor
  · intro hm
    rw [List.mem_filterMap] at hm
    obtain ⟨e, he, hs⟩ := hm
    unfold seen at hs
    split at hs
    · exact absurd (Option.some.inj hs) (run_own h e he)
    · rename_i hp
      split at hs
      · rename_i ht; exact ⟨e, he, hp, ht⟩
      · cases hs
  · rintro ⟨e, he, hp, ht⟩
    exact List.mem_filterMap.2 ⟨e, he, by simp [seen, hp, ht]⟩

theorem timeout_iff : Act.timeout ∈ es.filterMap (seen C p) ↔ (p, Act.timeout) ∈ es := by
  constructor
  · intro hm
    rw [List.mem_filterMap] at hm
    obtain ⟨⟨q, a⟩, he, hs⟩ := hm
    unfold seen at hs
    split at hs
    · rename_i hp
      dsimp only at hp hs
      rw [← hp, ← Option.some.inj hs]; exact he
    · split at hs <;> cases hs
  · intro h
    exact List.mem_filterMap.2 ⟨_, h, by simp [seen]⟩

theorem inv (h : run W C (initial files) es = some js) :
    acts W (C.planner p) p ⟨.ready, files p⟩ (es.filterMap (seen C p)) = some (js p) := run_seen h p

/-- C136. The solution file of a problem and the state of its job depend only on the acts of this job and on the timeouts of jobs with the same planner on the same machine:
whatever else the other jobs do, in whatever order, changes nothing. -/
theorem C136_noninterference {js1 js2 js1' js2' : Jobs} {es1 es2 : List Event} (h1 : run W C js1 es1 = some js1') (h2 : run W C js2 es2 = some js2')
    (h0 : js1 p = js2 p) (hv : view C p es1 = view C p es2) : js1' p = js2' p := by
  have a := run_seen h1 p
  have b := run_seen h2 p
  rw [← view_eq] at a b
  rw [h0, hv, b] at a
  exact (Option.some.inj a).symm

/-- C136. Metric-FF at every moment, also after the job was killed: the file is as before, or absent, or a first part of the output of the process of this problem, or a first part of
the plan in such an output. -/
theorem C136_moment_metric_ff (hs : C.planner p = .metricFF) (h : run W C (initial files) es = some js) :
    (js p).file = files p ∨ (js p).file = none ∨ ∃ t, t <+: (W.process p 0).text.getD [] ∧
      ((js p).file = some t ∨ ∃ d, d <+: W.plan t ∧ (js p).file = some d) := by
  have a := inv (p := p) h
  rw [hs] at a
  exact (acts_ff _ a).always

/-- C136. Fast Downward at every moment: the file is as before, or a first part of the plan of the process of this problem, or (when the process ends with success without
writing a plan) of the file before. -/
theorem C136_moment_fast_downward (hs : C.planner p = .fastDownward) (h : run W C (initial files) es = some js) :
    (js p).file = files p ∨ ∃ u, (files p = some u ∨ (W.process p 0).text = some u) ∧ ∃ d, d <+: u ∧ (js p).file = some d := by
  have a := inv (p := p) h
  rw [hs] at a
  exact (acts_fd _ (run_no_hit h hs) a).always

/-- C136. ENHSP at every moment: the file is as before or a first part of the plan of one of at most four processes of this problem. -/
theorem C136_moment_enhsp (hs : C.planner p = .enhsp) (h : run W C (initial files) es = some js) :
    (js p).file = files p ∨ ∃ i, i ≤ 3 ∧ ∃ t, (W.process p i).text = some t ∧ ∃ d, d <+: t ∧ (js p).file = some d := by
  have a := inv (p := p) h
  rw [hs] at a
  exact (acts_en_weak _ a).1

/-- C136. A Metric-FF job that has ended: it ran out of time and there is no file; or answer and file are those of the whole output of its process; or another job killed the process, and
they are those of a first part of the output. The file before the job does not matter. -/
theorem C136_metric_ff {o : Outcome} (hs : C.planner p = .metricFF) (h : run W C (initial files) es = some js) (hr : (js p).phase = .returned o) :
    (o = .timeout ∧ (p, Act.timeout) ∈ es ∧ (js p).file = none) ∨
    (o, (js p).file) = ffAnswer W ((W.process p 0).text.getD []) (W.process p 0).code ∨
    (Disturbed C p es ∧ ∃ t, t <+: (W.process p 0).text.getD [] ∧ (o, (js p).file) = ffAnswer W t 1) := by
  have a := inv (p := p) h
  rw [hs] at a
  have i := acts_ff _ a
  simp only [InvFF, hr] at i
  rcases i with i | ⟨t, c, i1 | i1, i2⟩
  · exact Or.inl ⟨i.1, timeout_iff.1 i.2.1, i.2.2⟩
  · exact Or.inr (Or.inl (by rw [← i2, i1.1, i1.2]; rfl))
  · exact Or.inr (Or.inr ⟨(hit_iff h).1 i1.1, t, i1.2.1, by rw [← i2, i1.2.2]⟩)

/-- C136. Every answer of Metric-FF other than `ok` leaves no solution file. -/
theorem C136_metric_ff_clean {o : Outcome} (hs : C.planner p = .metricFF) (h : run W C (initial files) es = some js) (hr : (js p).phase = .returned o)
    (ho : o ≠ .ok) : (js p).file = none := by
  have key : ∀ t c, (o, (js p).file) = ffAnswer W t c → (js p).file = none := by
    intro t c e
    unfold ffAnswer at e
    split at e
    · simp only [Prod.mk.injEq] at e; exact absurd e.1 ho
    · split at e <;> simp only [Prod.mk.injEq] at e <;> exact e.2
  rcases C136_metric_ff hs h hr with x | x | ⟨_, t, _, x⟩
  · exact x.2.2
  · exact key _ _ x
  · exact key _ _ x

/-- C136. If the parser never finds a plan in an output that was cut, then `ok` means that the file holds the plan of the whole output, whatever the other jobs did. -/
theorem C136_metric_ff_ok (hs : C.planner p = .metricFF) (h : run W C (initial files) es = some js) (hr : (js p).phase = .returned .ok)
    (hw : ∀ t, t <+: (W.process p 0).text.getD [] → t ≠ (W.process p 0).text.getD [] → W.status t ≠ .ok) :
    W.status ((W.process p 0).text.getD []) = .ok ∧ (js p).file = some (W.plan ((W.process p 0).text.getD [])) := by
  have key : ∀ t c, (Outcome.ok, (js p).file) = ffAnswer W t c → W.status t = .ok ∧ (js p).file = some (W.plan t) := by
    intro t c e
    unfold ffAnswer at e
    split at e
    · rename_i hk; simp only [Prod.mk.injEq] at e; exact ⟨hk, e.2⟩
    · split at e <;> simp only [Prod.mk.injEq] at e <;> cases e.1
  rcases C136_metric_ff hs h hr with x | x | ⟨_, t, ht, x⟩
  · cases x.1
  · exact key _ _ x
  · obtain ⟨k1, k2⟩ := key _ _ x
    have : t = (W.process p 0).text.getD [] := by
      by_contra hne
      exact hw t ht hne k1
    rw [← this]; exact ⟨k1, k2⟩

/-- C136. A Fast Downward job that has ended: the answer by the return code; after success the plan without its last line; after anything else the file as the process left it, which may be the
one from before. It raises iff the process ends with success and there is no file. No other job matters. -/
theorem C136_fast_downward (hs : C.planner p = .fastDownward) (h : run W C (initial files) es = some js) :
    (∀ o, (js p).phase = .returned o → fdAnswer (files p) (W.process p 0) = some (o, (js p).file)) ∧
    ((js p).phase = .raised → fdAnswer (files p) (W.process p 0) = none) := by
  have a := inv (p := p) h
  rw [hs] at a
  have i := acts_fd _ (run_no_hit h hs) a
  constructor
  · intro o hr; simpa only [InvFD, hr] using i
  · intro hr; simp only [InvFD, hr] at i; exact i.1

/-- C136. An ENHSP job that has ended, did not run out of time and was not disturbed: the answer of the first process that says something known, or of the fourth; the file is the one the last of
these processes wrote, or the one from before. -/
theorem C136_enhsp {o : Outcome} (hs : C.planner p = .enhsp) (h : run W C (initial files) es = some js) (hr : (js p).phase = .returned o)
    (hd : ¬ Disturbed C p es) (ht : (p, Act.timeout) ∉ es) :
    ∃ i, i ≤ 3 ∧ (∀ i' < i, said (W.process p i').sentences = none) ∧ (i < 3 → said (W.process p i).sentences ≠ none) ∧
      o = (said (W.process p i).sentences).getD .solverError ∧
      (js p).file = lastText (files p) ((List.range (i + 1)).map fun i' => (W.process p i').text) := by
  have a := inv (p := p) h
  rw [hs] at a
  have c := acts_en _ (fun x => hd ((hit_iff h).1 x)) (fun x => ht (timeout_iff.1 x)) a
  simp only [CalmEN, hr] at c
  obtain ⟨i, hu, h1, h2, h3⟩ := c
  exact ⟨i, hu.1, hu.2, h1, h2, h3⟩

/-- C136. Every job ends: there is a bound on what it can do in any history, and as long as it has not ended it can do something other than running out of time or being killed, without the help of
another job. Only Fast Downward can raise. -/
theorem C136_ends (W : World) (C : Cluster) (files : String → Option Text) (p : String) : ∃ N : Nat, ∀ es js, run W C (initial files) es = some js →
    (es.filter fun e => decide (e.1 = p)).length ≤ N ∧
    ((∃ o, (js p).phase = .returned o) ∨ ((js p).phase = .raised ∧ C.planner p = .fastDownward) ∨ (js p).phase = .dead ∨
      ∃ a, a ≠ .kill ∧ a ≠ .timeout ∧ (step W C js (p, a)).isSome) := by
  refine ⟨rank W p (room W p (files p)) .ready, fun es js h => ⟨?_, ?_⟩⟩
  · have b := acts_bounded _ (fun hs => run_no_hit h hs) (inv (p := p) h)
    have e : (es.filter fun e => decide (e.1 = p)).length ≤ ((es.filterMap (seen C p)).filter fun a => decide (a ≠ .hit)).length := by
      have ho := run_own h
      clear b h
      induction es with
      | nil => simp
      | cons e es ih =>
        have ih := ih fun e' he' => ho e' (by simp [he'])
        have h2 := ho e (by simp)
        by_cases hp : e.1 = p
        · have hse : seen C p e = some e.2 := by simp [seen, hp]
          rw [List.filter_cons_of_pos (by simp [hp]), List.filterMap_cons_some hse, List.filter_cons_of_pos (by simp [h2])]
          simp only [List.length_cons]; omega
        · rw [List.filter_cons_of_neg (by simp [hp])]
          cases hse : seen C p e with
          | none => rw [List.filterMap_cons_none hse]; exact ih
          | some a =>
            rw [List.filterMap_cons_some hse]
            refine ih.trans ?_
            simp only [List.filter_cons]; split <;> simp
    omega
  · by_cases h1 : ∃ o, (js p).phase = .returned o
    · exact Or.inl h1
    · by_cases h2 : (js p).phase = .raised
      · refine Or.inr (Or.inl ⟨h2, ?_⟩)
        have a := inv (p := p) h
        cases hs : C.planner p with
        | fastDownward => rfl
        | metricFF => rw [hs] at a; have i := acts_ff _ a; simp only [InvFF, h2] at i
        | enhsp => rw [hs] at a; have i := (acts_en_weak _ a).2; simp only [h2] at i
      · by_cases h3 : (js p).phase = .dead
        · exact Or.inr (Or.inr (Or.inl h3))
        · obtain ⟨a, k1, k2, k3, k4⟩ := can_act (W := W) (s := C.planner p) (p := p) (js p) (fun o x => h1 ⟨o, x⟩) h2 h3
          refine Or.inr (Or.inr (Or.inr ⟨a, k1, k2, ?_⟩))
          obtain ⟨j, hj⟩ := Option.isSome_iff_exists.1 k4
          simp [step, k3, hj]

/-- C136. One job is submitted for every problem file with the prefix and no other one, in the order of the file system; a time limit that is not a text ends the script with a
`TypeError` before the first job, unless there is no problem. -/
theorem C136_submitted (pre : String) (timeoutIsText : Bool) (problems : List String) :
    (∀ ps, submitted pre timeoutIsText problems = .ok ps →
      (∀ p, p ∈ ps ↔ p ∈ problems ∧ pre.toList <+: p.toList) ∧ ps.Sublist problems) ∧
    (submitted pre timeoutIsText problems = .error .typeError ↔ timeoutIsText = false ∧ ∃ p ∈ problems, pre.toList <+: p.toList) := by
  unfold submitted
  dsimp only
  constructor
  · intro ps h
    split at h
    · cases h
      refine ⟨fun p => ?_, List.filter_sublist⟩
      simp [List.mem_filter, List.isPrefixOf_iff_prefix]
    · cases h
  · split
    · rename_i h
      simp only [reduceCtorEq, false_iff, not_and, not_exists]
      rintro ht p hp hpre
      rcases h with h | h
      · rw [List.filter_eq_nil_iff] at h
        exact h p hp (by simpa [List.isPrefixOf_iff_prefix] using hpre)
      · rw [ht] at h; cases h
    · rename_i h
      rw [not_or] at h
      simp only [true_iff]
      refine ⟨by simpa using h.2, ?_⟩
      obtain ⟨p, hp⟩ := List.exists_mem_of_ne_nil _ h.1
      rw [List.mem_filter] at hp
      exact ⟨p, hp.1, by simpa [List.isPrefixOf_iff_prefix] using hp.2⟩

end SolverJobs

namespace SolverJobsCase
open Model.SolverJobs Spec.SolverJobs Props.SolverJobs
open Spec.Jobs (Planner)
open Spec (Outcome)

def nothing : Model.EnhspRun := ⟨false, false, false, false, false, false⟩
def solved : Model.EnhspRun := { nothing with solved := true }

/-- Two problems; the output of Metric-FF: a sentence, two steps of the plan, a line of statistics. `bad`: the Fast Downward driver fails. The parser of this world says `ok` as soon as
the sentence is there, and takes the lines that are steps. -/
def W : World where
  process p _ := ⟨if p = "bad" then none else some ["found legal plan", "step a", "step b", "time"], if p = "bad" then 34 else 0, if p = "bad" then nothing else solved, nothing⟩
  status t := if t.head? = some "found legal plan" then .ok else .other
  plan t := t.filter fun l => l = "step a" ∨ l = "step b"

def ff : Cluster := ⟨fun _ => .metricFF, fun _ => 0⟩
def fd : Cluster := ⟨fun _ => .fastDownward, fun _ => 0⟩
def en : Cluster := ⟨fun _ => .enhsp, fun _ => 0⟩
def files : String → Option Text := fun p => if p = "bad" then some ["old plan", "cost"] else none

/-- Everything a job of `p` does when it is alone: five lines with Metric-FF. -/
def alone (p : String) : List Event :=
  [(p, .launch), (p, .line), (p, .line), (p, .line), (p, .line), (p, .exit), (p, .go), (p, .go), (p, .go), (p, .go), (p, .go)]

/-- Two jobs one in the other; the second runs out of time at the end of the first. -/
def both : List Event := [("p2", .launch), ("p2", .line)] ++ alone "p1" ++ [("p2", .timeout), ("p2", .go)]

def final (C : Cluster) (es : List Event) (p : String) : Option (Phase × Option Text) := (run W C (initial files) es).map fun js => ((js p).phase, (js p).file)

example : final ff both "p1" = some (.returned .ok, some ["step a", "step b"]) ∧ final ff both "p2" = some (.returned .timeout, none) := by decide +kernel
example : view ff "p1" both = (alone "p1").map (·.2) ++ [.hit] := by decide +kernel

/-- C136. The parser has to notice a cut: here another job runs out of time after the second line; the answer is `ok` and the file holds half of the plan. -/
theorem C136_cut_plan : ∃ es, final ff es "p1" = some (.returned .ok, some ["step a"]) ∧
    ffAnswer W ["found legal plan", "step a", "step b", "time"] 0 = (.ok, some ["step a", "step b"]) :=
  ⟨[("p1", .launch), ("p1", .line), ("p2", .launch), ("p1", .line), ("p2", .timeout), ("p1", .go), ("p1", .go), ("p1", .go), ("p1", .go)], by decide +kernel, by decide +kernel⟩

/-- C136. With Fast Downward and ENHSP a solution file that was there before is still there when the answer is an error, and the creator of trajectories will use it. -/
theorem C136_stale : (∃ es, final fd es "bad" = some (.returned .solverError, some ["old plan", "cost"])) ∧
    ∃ es, final en es "bad" = some (.returned .solverError, some ["old plan", "cost"]) :=
  ⟨⟨[("bad", .launch), ("bad", .exit), ("bad", .go)], by decide +kernel⟩,
    ⟨[("bad", .launch), ("bad", .exit), ("bad", .go), ("bad", .exit), ("bad", .go), ("bad", .exit), ("bad", .go), ("bad", .exit), ("bad", .go)], by decide +kernel⟩⟩

/-- C136. A job that is killed leaves a file that is no plan: the log of Metric-FF, an empty file, or the plan of Fast Downward with the line of the cost. -/
theorem C136_killed : (∃ es, final ff es "p1" = some (.dead, some ["found legal plan", "step a"])) ∧ (∃ es, final ff es "p1" = some (.dead, some [])) ∧
    ∃ es, final fd es "p1" = some (.dead, some ["found legal plan", "step a", "step b", "time"]) :=
  ⟨⟨[("p1", .launch), ("p1", .line), ("p1", .line), ("p1", .kill)], by decide +kernel⟩,
    ⟨[("p1", .launch), ("p1", .line), ("p1", .line), ("p1", .line), ("p1", .line), ("p1", .exit), ("p1", .go), ("p1", .go), ("p1", .kill)], by decide +kernel⟩,
    ⟨[("p1", .launch), ("p1", .openFile), ("p1", .line), ("p1", .line), ("p1", .line), ("p1", .line), ("p1", .exit), ("p1", .kill)], by decide +kernel⟩⟩

-- Fast Downward and ENHSP finish; ENHSP is hit and tries again
example : final fd [("p1", .launch), ("p1", .openFile), ("p1", .line), ("p1", .line), ("p1", .line), ("p1", .line), ("p1", .exit), ("p1", .go), ("p1", .go), ("p1", .go), ("p1", .go), ("p1", .go), ("p1", .go)] "p1"
    = some (.returned .ok, some ["found legal plan", "step a", "step b"]) := by decide +kernel
example : final en [("p1", .launch), ("p2", .launch), ("p1", .openFile), ("p2", .timeout), ("p1", .go), ("p1", .openFile), ("p1", .line), ("p1", .line), ("p1", .line), ("p1", .line), ("p1", .exit), ("p1", .go)] "p1"
    = some (.returned .ok, some ["found legal plan", "step a", "step b", "time"]) := by decide +kernel
-- a parser that looks for the last line meets the condition of `C136_metric_ff_ok`
example : ∀ t, t <+: ["plan", "step a", "time"] → t ≠ ["plan", "step a", "time"] → (if t.getLast? = some "time" then Model.FfStatus.ok else .other) ≠ .ok := by
  intro t ht hn
  rw [← List.mem_inits] at ht
  simp only [List.inits, List.map_cons, List.map_nil, List.mem_cons, List.not_mem_nil, or_false] at ht
  rcases ht with rfl | rfl | rfl | rfl
  · decide
  · decide
  · decide
  · exact absurd rfl hn
example : submitted "pfile" true ["pfile1", "domain", "pfile2"] = .ok ["pfile1", "pfile2"] ∧ submitted "pfile" false ["pfile1", "domain", "pfile2"] = .error .typeError := by decide +kernel

end SolverJobsCase
end Props
