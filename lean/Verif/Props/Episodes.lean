import Verif.Lemmas.Episodes

/-! C36: the accounting of the episode recorder. -/
namespace Props
open Model Spec

section
variable {S : Type} {names : List String} (hn : (infoKeys names).Nodup) (max : Nat) (os : List (LogOp S))

/-- The recorder after a sequence of calls. -/
def recorded (names : List String) (max : Nat) (os : List (LogOp S)) : Recorder S := ((Recorder.init names).run max os).1

/-- The counters of a dictionary are those of the calls `l`: per action and in total. -/
def Accounts (names : List String) (info : List (String × Nat)) (l : List (LogOp S)) : Prop :=
  (∀ a ∈ names, info.lookup (successKey a) = some (stepsOf a true l) ∧ info.lookup (failKey a) = some (stepsOf a false l) ∧
    ∀ r, info.lookup (reasonKey a r) = some (reasonsOf a r l)) ∧
  info.lookup "sum_successful_actions" = some (stepsWith true l) ∧ info.lookup "sum_failed_actions" = some (stepsWith false l)

theorem accounts_of (hn : (infoKeys names).Nodup) {info : List (String × Nat)} {l : List (LogOp S)} (hs : Shows names info l)
    (hk : ∀ o ∈ l, Known names o) : Accounts names info l := by
  obtain ⟨c1, c2, c3⟩ := count_bumps (distinct_of hn) l hk
  refine ⟨fun a ha => ?_, ?_, ?_⟩
  · obtain ⟨d1, d2, d3⟩ := c1 a ha
    refine ⟨?_, ?_, fun r => ?_⟩
    · rw [hs, if_pos (mem_infoKeys_success ha), d1]
    · rw [hs, if_pos (mem_infoKeys_fail ha), d2]
    · rw [hs, if_pos (mem_infoKeys_reason ha r), d3]
  · rw [hs, if_pos (mem_infoKeys_sumS names), c2]
  · rw [hs, if_pos (mem_infoKeys_sumF names), c3]

theorem current_known (os : List (LogOp S)) (hk : ∀ o ∈ os, Known names o) (acc : List (LogOp S)) (ha : ∀ o ∈ acc, Known names o) :
    (∀ o ∈ current acc os, Known names o) ∧ ∀ ep ∈ episodes acc os, ∀ o ∈ ep.2, Known names o := by
  induction os generalizing acc with
  | nil => exact ⟨ha, by simp [episodes]⟩
  | cons o os ih =>
    have hk' : ∀ o ∈ os, Known names o := fun x hx => hk x (List.mem_cons_of_mem _ hx)
    have happ : ∀ x ∈ acc ++ [o], Known names x := by
      intro x hx; rw [List.mem_append, List.mem_singleton] at hx
      rcases hx with hx | rfl
      · exact ha x hx
      · exact hk x List.mem_cons_self
    cases o with
    | endEpisode p e =>
      obtain ⟨h1, h2⟩ := ih hk' [] (by simp)
      refine ⟨h1, ?_⟩
      simp only [episodes, List.mem_cons]
      rintro ep (rfl | hep)
      · exact ha
      · exact h2 ep hep
    | _ => exact ih hk' _ happ

include hn in
/-- **C36.** After any sequence of calls about known actions: no call failed; the counters of the episode in progress are the
counts of its calls, per action and in total; the success history counts all successes ever; there is one summary row per
finished episode, numbered from 1, with the counts of that episode and as many steps as it had. -/
theorem C36_accounting (hk : ∀ o ∈ os, Known names o) :
    (∀ e ∈ ((Recorder.init names : Recorder S).run max os).2, e = none) ∧
    Accounts names (recorded names max os).info (current [] os) ∧
    (∀ a ∈ names, (recorded names max os).successCount a = .ok (stepsOf a true os)) ∧
    (recorded names max os).rows.map (·.number) = List.range' 1 (episodes [] os).length ∧
    List.Forall₂ (fun (row : EpisodeRow) ep => row.problem = ep.1 ∧ Accounts names row.info ep.2 ∧ row.steps = steps ep.2)
      (recorded names max os).rows (episodes [] os) := by
  obtain ⟨i1, i2, _, _, rows, i5, i6, i7⟩ := recRun max os (RecInv.init (S := S) names) hk
  obtain ⟨k1, k2⟩ := current_known os hk [] (by simp)
  have hrows : (recorded names max os).rows = rows := by
    unfold recorded; rw [i5]; rfl
  refine ⟨i1, accounts_of hn i2.info k1, fun a ha => ?_, by rw [hrows]; exact i7, ?_⟩
  · have := i2.hist a
    rw [if_pos ha, List.nil_append] at this
    unfold Recorder.successCount recorded
    rw [this]
  · rw [hrows]
    refine (List.forall₂_and_left (p := fun ep : String × List (LogOp S) => ∀ o ∈ ep.2, Known names o) _ _).mpr ⟨k2, i6.flip⟩ |>.flip.imp ?_
    rintro row ep ⟨hepk, h1, h2, h3⟩
    refine ⟨h1, accounts_of hn h2 hepk, ?_⟩
    obtain ⟨_, c2, c3⟩ := count_bumps (distinct_of hn) ep.2 hepk
    rw [h3, c2, c3, steps_eq]

/-- C36: the stored trajectory is what was recorded since the last `clear_trajectory` (the end of an episode does not clear it),
and exporting it writes its steps, in order, in files of at least one and at most `max` steps. -/
theorem C36_trajectory (hk : ∀ o ∈ os, Known names o) (hmax : 0 < max) (p : String) :
    (recorded names max os).trajectory = sinceClear [] os ∧
    ∃ new, (recorded names max (os ++ [.endEpisode p true])).files = (recorded names max os).files ++ new ∧
      (new.map Prod.snd).flatten = sinceClear [] os ∧ ∀ f ∈ new, 0 < f.2.length ∧ f.2.length ≤ max := by
  obtain ⟨_, i2, i3, _⟩ := recRun max os (RecInv.init (S := S) names) hk
  refine ⟨i3, ?_⟩
  have happ : ∀ (os : List (LogOp S)) (r : Recorder S) (o : LogOp S), (r.run max (os ++ [o])).1 = ((r.run max os).1.step max o).1 := by
    intro os
    induction os with
    | nil => intro r o; simp [Recorder.run]
    | cons x os ih => intro r o; simp only [List.cons_append, Recorder.run]; exact ih _ o
  unfold recorded
  rw [happ]
  have hS := i2.info "sum_successful_actions"
  have hF := i2.info "sum_failed_actions"
  rw [if_pos (mem_infoKeys_sumS names)] at hS
  rw [if_pos (mem_infoKeys_sumF names)] at hF
  simp only [Recorder.step, Recorder.endEpisode, hS, hF, if_true, Recorder.exportTrajectory]
  refine ⟨_, rfl, ?_, ?_⟩
  · rw [List.map_map]
    have : ∀ (l : List (List (LogStep S))) (f : List (LogStep S) × Nat → String) (n : Nat),
        (l.zipIdx n).map (Prod.snd ∘ fun p => (f p, p.1)) = l := by
      intro l f n
      induction l generalizing n with
      | nil => rfl
      | cons x l ih => simp only [List.zipIdx_cons, List.map_cons, Function.comp, List.cons.injEq, true_and]; exact ih _
    have h2 := (slices_flatten max hmax _ _ (le_refl ((Recorder.init names : Recorder S).run max os).1.trajectory.length)).1
    rw [show sinceClear [] os = ((Recorder.init names : Recorder S).run max os).1.trajectory from i3.symm]
    conv_rhs => rw [← h2]
    congr 1
    exact this _ _ 0
  · intro f hf
    obtain ⟨x, hx, rfl⟩ := List.mem_map.mp hf
    exact (slices_flatten max hmax _ _ (le_refl _)).2 x.1 (List.fst_mem_of_mem_zipIdx hx)

theorem recordStep_files (r : Recorder S) (s : LogStep S) : (r.recordStep s).1.files = r.files ∧ (r.recordStep s).1.paths = r.paths := by
  unfold Recorder.recordStep
  dsimp only
  constructor <;> split_ifs <;> repeat' (first | rfl | split)

theorem recordReason_files (r : Recorder S) (a : String) (w : Reason) :
    (r.recordReason a w).1.files = r.files ∧ (r.recordReason a w).1.paths = r.paths := by
  unfold Recorder.recordReason
  constructor <;> repeat' (first | rfl | split)

theorem step_files (r : Recorder S) (o : LogOp S) (ho : o ≠ .clearPaths) :
    ∃ new, (r.step max o).1.files = r.files ++ new ∧ (r.step max o).1.paths = r.paths ++ new.map Prod.fst := by
  cases o with
  | step s => exact ⟨[], by simp [Recorder.step, recordStep_files]⟩
  | reason a w => exact ⟨[], by simp [Recorder.step, recordReason_files]⟩
  | clearTrajectory => exact ⟨[], by simp [Recorder.step]⟩
  | clearPaths => exact absurd rfl ho
  | endEpisode p e =>
    simp only [Recorder.step, Recorder.endEpisode]
    split
    · cases e
      · exact ⟨[], by simp⟩
      · exact ⟨_, rfl, rfl⟩
    · exact ⟨[], by simp⟩

/-- C36: the paths handed to the learner are the names of exactly the files written since they were last cleared, in order
(whatever calls were made, even failing ones). -/
theorem C36_paths (names : List String) (os₁ os₂ : List (LogOp S)) (h : .clearPaths ∉ os₂) :
    (recorded names max os₂).paths = (recorded names max os₂).files.map Prod.fst ∧
    ∃ new, (recorded names max (os₁ ++ .clearPaths :: os₂)).files = (recorded names max os₁).files ++ new ∧
      (recorded names max (os₁ ++ .clearPaths :: os₂)).paths = new.map Prod.fst := by
  have key : ∀ (os : List (LogOp S)) (r : Recorder S), .clearPaths ∉ os →
      ∃ new, (r.run max os).1.files = r.files ++ new ∧ (r.run max os).1.paths = r.paths ++ new.map Prod.fst := by
    intro os
    induction os with
    | nil => intro r _; exact ⟨[], by simp [Recorder.run]⟩
    | cons o os ih =>
      intro r ho
      obtain ⟨n1, a1, a2⟩ := step_files max r o (fun k => ho (k ▸ List.mem_cons_self))
      obtain ⟨n2, b1, b2⟩ := ih (r.step max o).1 (fun k => ho (List.mem_cons_of_mem _ k))
      refine ⟨n1 ++ n2, ?_, ?_⟩
      · simp only [Recorder.run]; rw [b1, a1, List.append_assoc]
      · simp only [Recorder.run]; rw [b2, a2, List.map_append, List.append_assoc]
  constructor
  · obtain ⟨n, h1, h2⟩ := key os₂ (Recorder.init names) h
    unfold recorded
    rw [h1, h2, List.map_append]
    congr 1
  · have hsplit : ∀ (os : List (LogOp S)) (r : Recorder S),
        (r.run max (os ++ .clearPaths :: os₂)).1 = (Recorder.run max { (r.run max os).1 with paths := [] } os₂).1 := by
      intro os
      induction os with
      | nil => intro r; rfl
      | cons o os ih => intro r; simp only [List.cons_append, Recorder.run]; exact ih _
    obtain ⟨n, h1, h2⟩ := key os₂ { ((Recorder.init names).run max os₁).1 with paths := [] } h
    refine ⟨n, ?_, ?_⟩
    · unfold recorded; rw [hsplit, h1]
    · unfold recorded; rw [hsplit, h2, List.nil_append]

/-- C36: a step of an unknown action is a `KeyError`, but stays in the trajectory (and in the files exported later). -/
theorem C36_unknown_action (hk : ∀ o ∈ os, Known names o) (s : LogStep S)
    (hu : (if s.ok then successKey s.action else failKey s.action) ∉ infoKeys names) :
    ((recorded names max os).recordStep s).2 = some .keyError ∧
    ((recorded names max os).recordStep s).1 = { recorded names max os with trajectory := sinceClear [] os ++ [s] } := by
  obtain ⟨_, i2, i3, _⟩ := recRun max os (RecInv.init (S := S) names) hk
  unfold Recorder.recordStep incr recorded
  have ht : (Recorder.run max (Recorder.init names) os).1.trajectory = sinceClear [] os := i3
  dsimp only
  cases hok : s.ok
  · rw [hok] at hu
    simp only [Bool.false_eq_true, if_false] at hu ⊢
    have := i2.info (failKey s.action)
    rw [if_neg hu] at this
    simp only [this, ht, and_self]
  · rw [hok] at hu
    simp only [if_true] at hu ⊢
    have := i2.info (successKey s.action)
    rw [if_neg hu] at this
    simp only [this, ht, and_self]

end

/-! ### Examples -/

private def demo : List (LogOp Nat) :=
  [.step ⟨"move", true, 0⟩, .step ⟨"load", false, 1⟩, .reason "load" .numeric, .endEpisode "p1" true, .clearTrajectory,
   .step ⟨"move", true, 2⟩, .step ⟨"move", true, 3⟩, .step ⟨"move", false, 4⟩, .endEpisode "p2" true, .step ⟨"load", true, 5⟩]

example : (infoKeys ["move", "load"]).Nodup := by decide +kernel
example : ∀ o ∈ demo, Known ["move", "load"] o := by simp [demo, Known]
example : let r := recorded ["move", "load"] 2 demo
    r.rows.map (fun row => (row.number, row.problem, row.steps)) = [(1, "p1", 2), (2, "p2", 3)] ∧
    r.files.map (fun f => (f.1, f.2.map (·.data))) = [("trajectory_p1_episode_2_part_0.trajectory", [0, 1]),
      ("trajectory_p2_episode_3_part_0.trajectory", [2, 3]), ("trajectory_p2_episode_3_part_1.trajectory", [4])] := by
  decide +kernel

example : (LogOp.clearPaths : LogOp Nat) ∉ demo := by simp [demo]
example : (recorded ["move", "load"] 2 (demo ++ .clearPaths :: [.endEpisode "p3" true])).paths =
    ["trajectory_p3_episode_4_part_0.trajectory", "trajectory_p3_episode_4_part_1.trajectory"] := by decide +kernel

/-- A step of an unknown action: the hypothesis of `C36_unknown_action` and its effect. -/
example : (if (⟨"fly", true, 7⟩ : LogStep Nat).ok then successKey "fly" else failKey "fly") ∉ infoKeys ["move", "load"] := by decide +kernel
example : ((recorded ["move", "load"] 2 demo).recordStep ⟨"fly", true, 7⟩).1.trajectory.map (·.data) = [2, 3, 4, 5, 7] := by decide +kernel

theorem num_inj {a b : String} : "num_" ++ a = "num_" ++ b ↔ a.toList = b.toList := by
  rw [← String.toList_inj, String.toList_append, String.toList_append, List.append_cancel_left_eq]

theorem long_prefix {a s p q b : List Char} (h : a ++ s = p ++ q ++ b) (hl : s.length ≤ q.length) : p <+: a := by
  have h1 : a <+: a ++ s := List.prefix_append _ _
  have h2 : p <+: a ++ s := by rw [h, List.append_assoc]; exact List.prefix_append _ _
  refine List.prefix_of_prefix_length_le h2 h1 ?_
  have := congrArg List.length h
  simp only [List.length_append] at this
  omega

/-- **C36.** The counters of different actions, and of different outcomes, have different keys, as long as the actions have different names and no name begins with
`failed_due_to_` or `unknown_failed_`. -/
theorem C36_keys {names : List String} (hn : names.Nodup)
    (hp : ∀ a ∈ names, ¬ "failed_due_to_".toList <+: a.toList ∧ ¬ "unknown_failed_".toList <+: a.toList) : (infoKeys names).Nodup := by
  have sEq : ∀ a, (successKey a).toList = "num_".toList ++ (a.toList ++ "_success".toList) := fun a => by
    unfold successKey; rw [String.toList_append, String.toList_append, List.append_assoc]
  have fEq : ∀ a, (failKey a).toList = "num_".toList ++ (a.toList ++ "_fail".toList) := fun a => by
    unfold failKey; rw [String.toList_append, String.toList_append, List.append_assoc]
  have dEq : ∀ a, (reasonKey a .discrete).toList = "num_".toList ++ ("failed_due_to_".toList ++ "discrete_condition_".toList ++ a.toList) := fun a => by
    unfold reasonKey; rw [String.toList_append, ← List.append_assoc]; congr 1
  have nEq : ∀ a, (reasonKey a .numeric).toList = "num_".toList ++ ("failed_due_to_".toList ++ "numeric_condition_".toList ++ a.toList) := fun a => by
    unfold reasonKey; rw [String.toList_append, ← List.append_assoc]; congr 1
  have uEq : ∀ a, (reasonKey a .unknown).toList = "num_".toList ++ ("unknown_failed_".toList ++ "transitions_".toList ++ a.toList) := fun a => by
    unfold reasonKey; rw [String.toList_append, ← List.append_assoc]; congr 1
  have inj : ∀ {x y : String}, x = y → x.toList = y.toList := fun h => congrArg _ h
  have mapNd : ∀ g : String → String, (∀ a b, g a = g b → a = b) → (names.map g).Nodup := fun g hg =>
    hn.map fun a b h => hg a b h
  have disj : ∀ g k : String → String, (∀ a ∈ names, ∀ b ∈ names, g a ≠ k b) → ∀ x ∈ names.map g, ∀ y ∈ names.map k, x ≠ y := by
    intro g k h x hx y hy
    obtain ⟨a, ha, rfl⟩ := List.mem_map.mp hx
    obtain ⟨b, hb, rfl⟩ := List.mem_map.mp hy
    exact h a ha b hb
  have strInj : ∀ {a b : String}, a.toList = b.toList → a = b := fun h => String.toList_inj.mp h
  have col : ∀ c ∈ recordColumns, ∀ a ∈ names, c ≠ successKey a ∧ c ≠ failKey a ∧ ∀ r, c ≠ reasonKey a r := by
    have key : ∀ c ∈ recordColumns, ¬ "_success".toList <:+ c.toList ∧ ¬ "_fail".toList <:+ c.toList ∧
        ¬ "num_failed".toList <+: c.toList ∧ ¬ "num_unknown".toList <+: c.toList := by decide +kernel
    intro c hc a _
    obtain ⟨k1, k2, k3, k4⟩ := key c hc
    refine ⟨?_, ?_, ?_⟩
    · rintro rfl
      exact k1 (by rw [sEq, ← List.append_assoc]; exact List.suffix_append _ _)
    · rintro rfl
      exact k2 (by rw [fEq, ← List.append_assoc]; exact List.suffix_append _ _)
    · rintro r rfl
      cases r with
      | discrete => exact k3 (by rw [dEq]; exact ⟨"_due_to_".toList ++ ("discrete_condition_".toList ++ a.toList), by simp⟩)
      | numeric => exact k3 (by rw [nEq]; exact ⟨"_due_to_".toList ++ ("numeric_condition_".toList ++ a.toList), by simp⟩)
      | unknown => exact k4 (by rw [uEq]; exact ⟨"_failed_".toList ++ ("transitions_".toList ++ a.toList), by simp⟩)
  have sr : ∀ a ∈ names, ∀ b ∈ names, ∀ r, successKey a ≠ reasonKey b r := by
    intro a ha b _ r h
    have h := inj h
    rw [sEq] at h
    cases r with
    | discrete => rw [dEq, List.append_cancel_left_eq] at h; exact (hp a ha).1 (long_prefix h (by decide))
    | numeric => rw [nEq, List.append_cancel_left_eq] at h; exact (hp a ha).1 (long_prefix h (by decide))
    | unknown => rw [uEq, List.append_cancel_left_eq] at h; exact (hp a ha).2 (long_prefix h (by decide))
  have fr : ∀ a ∈ names, ∀ b ∈ names, ∀ r, failKey a ≠ reasonKey b r := by
    intro a ha b _ r h
    have h := inj h
    rw [fEq] at h
    cases r with
    | discrete => rw [dEq, List.append_cancel_left_eq] at h; exact (hp a ha).1 (long_prefix h (by decide))
    | numeric => rw [nEq, List.append_cancel_left_eq] at h; exact (hp a ha).1 (long_prefix h (by decide))
    | unknown => rw [uEq, List.append_cancel_left_eq] at h; exact (hp a ha).2 (long_prefix h (by decide))
  have sf : ∀ a b, successKey a ≠ failKey b := by
    intro a b h
    have h := congrArg List.reverse (inj h)
    rw [sEq, fEq] at h
    simp only [List.reverse_append] at h
    cases h
  have rr : ∀ a b r r', r ≠ r' → reasonKey a r ≠ reasonKey b r' := by
    intro a b r r' hr h
    have h := congrArg (fun l => (l.drop 4).take 22) (inj h)
    cases r <;> cases r' <;> first | exact hr rfl | (simp only [dEq, nEq, uEq] at h; simp at h)
  unfold infoKeys
  rw [List.nodup_append, List.nodup_append, List.nodup_append, List.nodup_append, List.nodup_append]
  refine ⟨⟨⟨⟨⟨by decide +kernel, ?_, ?_⟩, ?_, ?_⟩, ?_, ?_⟩, ?_, ?_⟩, ?_, ?_⟩
  · exact mapNd _ fun a b h => strInj (by have := inj h; rwa [sEq, sEq, List.append_cancel_left_eq, List.append_cancel_right_eq] at this)
  · intro x hx y hy
    obtain ⟨b, hb, rfl⟩ := List.mem_map.mp hy
    exact (col x hx b hb).1
  · exact mapNd _ fun a b h => strInj (by have := inj h; rwa [fEq, fEq, List.append_cancel_left_eq, List.append_cancel_right_eq] at this)
  · intro x hx y hy
    obtain ⟨b, hb, rfl⟩ := List.mem_map.mp hy
    rcases List.mem_append.mp hx with hx | hx
    · exact (col x hx b hb).2.1
    · obtain ⟨a, ha, rfl⟩ := List.mem_map.mp hx
      exact sf a b
  · exact mapNd _ fun a b h => strInj (by have := inj h; rwa [dEq, dEq, List.append_cancel_left_eq, List.append_cancel_left_eq] at this)
  · intro x hx y hy
    obtain ⟨b, hb, rfl⟩ := List.mem_map.mp hy
    rcases List.mem_append.mp hx with hx | hx
    · rcases List.mem_append.mp hx with hx | hx
      · exact (col x hx b hb).2.2 _
      · obtain ⟨a, ha, rfl⟩ := List.mem_map.mp hx
        exact sr a ha b hb _
    · obtain ⟨a, ha, rfl⟩ := List.mem_map.mp hx
      exact fr a ha b hb _
  · exact mapNd _ fun a b h => strInj (by have := inj h; rwa [nEq, nEq, List.append_cancel_left_eq, List.append_cancel_left_eq] at this)
  · intro x hx y hy
    obtain ⟨b, hb, rfl⟩ := List.mem_map.mp hy
    rcases List.mem_append.mp hx with hx | hx
    · rcases List.mem_append.mp hx with hx | hx
      · rcases List.mem_append.mp hx with hx | hx
        · exact (col x hx b hb).2.2 _
        · obtain ⟨a, ha, rfl⟩ := List.mem_map.mp hx
          exact sr a ha b hb _
      · obtain ⟨a, ha, rfl⟩ := List.mem_map.mp hx
        exact fr a ha b hb _
    · obtain ⟨a, ha, rfl⟩ := List.mem_map.mp hx
      exact rr a b _ _ (by decide)
  · exact mapNd _ fun a b h => strInj (by have := inj h; rwa [uEq, uEq, List.append_cancel_left_eq, List.append_cancel_left_eq] at this)
  · intro x hx y hy
    obtain ⟨b, hb, rfl⟩ := List.mem_map.mp hy
    rcases List.mem_append.mp hx with hx | hx
    · rcases List.mem_append.mp hx with hx | hx
      · rcases List.mem_append.mp hx with hx | hx
        · rcases List.mem_append.mp hx with hx | hx
          · exact (col x hx b hb).2.2 _
          · obtain ⟨a, ha, rfl⟩ := List.mem_map.mp hx
            exact sr a ha b hb _
        · obtain ⟨a, ha, rfl⟩ := List.mem_map.mp hx
          exact fr a ha b hb _
      · obtain ⟨a, ha, rfl⟩ := List.mem_map.mp hx
        exact rr a b _ _ (by decide)
    · obtain ⟨a, ha, rfl⟩ := List.mem_map.mp hx
      exact rr a b _ _ (by decide)

/-- The hypotheses of `C36_keys` are met. -/
example : ["move", "load_truck"].Nodup ∧ ∀ a ∈ ["move", "load_truck"], ¬ "failed_due_to_".toList <+: a.toList ∧ ¬ "unknown_failed_".toList <+: a.toList := by
  decide +kernel

/-- Names that make two counters share a key break the accounting: a failure of one action is shown as a success of the other
(episode_info_recorder.py:51-58). -/
theorem C36_needs_distinct_keys :
    let names := ["b_success", "unknown_failed_transitions_b"]
    ¬ (infoKeys names).Nodup ∧
    (recorded names 5000 [LogOp.reason (S := Nat) "b_success" .unknown]).info.lookup (successKey "unknown_failed_transitions_b") = some 1 := by
  decide +kernel

/-- The files of an episode carry the number of the next one (lines 167-187, 228), and a trajectory that is not cleared is
exported again. -/
theorem C36_file_label :
    let r := recorded ["move"] 5000 [.step ⟨"move", true, 0⟩, .endEpisode "p" true, .endEpisode "p" true]
    r.rows.map (·.number) = [1, 2] ∧ r.files.map (fun f => (f.1, f.2.map (·.data))) =
      [("trajectory_p_episode_2_part_0.trajectory", [0]), ("trajectory_p_episode_3_part_0.trajectory", [0])] := by
  decide +kernel

end Props
