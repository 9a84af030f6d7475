import Verif.Model.TrajectoryFiles
import Mathlib.Data.Finset.Card
import Mathlib.Data.List.Perm.Basic
import Mathlib.Data.List.Nodup

/-!
C115: the trajectory files under crashes and repeated runs.
-/
namespace Props
namespace TrajectoryFiles

open Model.TrajectoryFiles

/-! ### Vocabulary -/

/-- The trajectory file of a solution. -/
def traj (s : String) : Path := ⟨.work, s, .trajectory⟩

/-- The disk after a run of the creator. -/
def after (plan : String → Outcome) (d : Disk) (solutions : List String) : Disk := apply d (create plan d solutions).1

/-- The disks that runs can lead to, with the number of crashes. Every run sees the solutions in some order; it ends (by itself or by an
exception), or the machine stops at any point. -/
inductive History (plan : String → Outcome) (solutions : List String) (d0 : Disk) : Nat → Disk → Prop
  | start : History plan solutions d0 0 d0
  | run {n : Nat} {d : Disk} {order : List String} : History plan solutions d0 n d → order.Perm solutions →
      History plan solutions d0 n (after plan d order)
  | crash {n : Nat} {d d' : Disk} {order : List String} : History plan solutions d0 n d → order.Perm solutions →
      Crashed d (create plan d order).1 d' → History plan solutions d0 (n + 1) d'

/-- The disk after a run of the multi-agent creator. -/
def maAfter (enhanced vanilla : String → Attempt) (d : Disk) (solutions : List String) : Disk :=
  apply d (maCreate enhanced vanilla d solutions).1

/-- The same for the multi-agent creator; `possible s` are the results the random numbers can give for the enhanced problem of `s`. -/
inductive MaHistory (possible : String → Attempt → Prop) (vanilla : String → Attempt) (solutions : List String) : Nat → Disk → Prop
  | start : MaHistory possible vanilla solutions 0 (fun _ => none)
  | run {n : Nat} {d : Disk} {order : List String} {enhanced : String → Attempt} : MaHistory possible vanilla solutions n d →
      order.Perm solutions → (∀ s, possible s (enhanced s)) → MaHistory possible vanilla solutions n (maAfter enhanced vanilla d order)
  | crash {n : Nat} {d d' : Disk} {order : List String} {enhanced : String → Attempt} : MaHistory possible vanilla solutions n d →
      order.Perm solutions → (∀ s, possible s (enhanced s)) → Crashed d (maCreate enhanced vanilla d order).1 d' →
      MaHistory possible vanilla solutions (n + 1) d'

/-- The files of a data setFile for a solution are those of one attempt, except that of the trajectory there is only `t`. -/
def Holds (d : Disk) (folder : Folder) (s : String) (problem plan t : Text) : Prop :=
  d ⟨folder, s, .problem⟩ = some problem ∧ d ⟨folder, s, .plan⟩ = some plan ∧ d ⟨folder, s, .trajectory⟩ = some t

/-! ### Writes -/

/-- The disks agree on the files of a stem. -/
def Same (s : String) (d d' : Disk) : Prop := ∀ f k, d' ⟨f, s, k⟩ = d ⟨f, s, k⟩

theorem Same.refl (s : String) (d : Disk) : Same s d d := fun _ _ => rfl

theorem Same.symm {s : String} {d d' : Disk} (h : Same s d d') : Same s d' d := fun f k => (h f k).symm

theorem Same.trans {s : String} {d d' d'' : Disk} (h : Same s d d') (h' : Same s d' d'') : Same s d d'' :=
  fun f k => (h' f k).trans (h f k)

theorem apply_append (d : Disk) (a b : List Write) : apply d (a ++ b) = apply (apply d a) b := by
  unfold apply; rw [List.foldl_append]

theorem apply_cons (d : Disk) (w : Write) (b : List Write) : apply d (w :: b) = apply (setFile d w.path w.text) b := rfl

theorem set_same {s : String} {d : Disk} {p : Path} {t : Text} (h : p.stem ≠ s) : Same s d (setFile d p t) := by
  intro f k
  unfold setFile
  rw [if_neg]
  intro e
  exact h (by rw [← e])

theorem set_congr {s : String} {d d' : Disk} (h : Same s d d') (p : Path) (t : Text) : Same s (setFile d p t) (setFile d' p t) := by
  intro f k
  unfold setFile
  split
  · rfl
  · exact h f k

theorem apply_same {s : String} {ws : List Write} : ∀ {d : Disk}, (∀ w ∈ ws, w.path.stem ≠ s) → Same s d (apply d ws) := by
  induction ws with
  | nil => intro d _; exact Same.refl _ _
  | cons w ws ih =>
    intro d h
    rw [apply_cons]
    exact (set_same (h w (by simp))).trans (ih fun x hx => h x (by simp [hx]))

theorem apply_congr {s : String} (ws : List Write) : ∀ {d d' : Disk}, Same s d d' → Same s (apply d ws) (apply d' ws) := by
  induction ws with
  | nil => intro d d' h; exact h
  | cons w ws ih => intro d d' h; exact ih (set_congr h _ _)

/-- A stop during writes: between two files, or (if it need not be clean) within a file. -/
def Stop (clean : Bool) (d : Disk) (ws : List Write) (d' : Disk) : Prop :=
  ∃ k, d' = apply d (ws.take k) ∨ ∃ w pre, (clean = false ∧ ws[k]? = some w) ∧ pre <+: w.text ∧ d' = setFile (apply d (ws.take k)) w.path pre

theorem stop_of_crashed {d : Disk} {ws : List Write} {d' : Disk} (h : Crashed d ws d') : Stop false d ws d' := by
  obtain ⟨k, h | ⟨w, pre, h1, h2⟩⟩ := h
  · exact ⟨k, .inl h⟩
  · exact ⟨k, .inr ⟨w, pre, ⟨rfl, h1⟩, h2⟩⟩

theorem stop_split {c : Bool} {d : Disk} {a b : List Write} {d' : Disk} (h : Stop c d (a ++ b) d') : Stop c d a d' ∨ Stop c (apply d a) b d' := by
  obtain ⟨k, h⟩ := h
  by_cases hk : k < a.length
  · left
    refine ⟨k, ?_⟩
    rw [List.take_append_of_le_length hk.le] at h
    rw [List.getElem?_append_left hk] at h
    exact h
  · right
    push Not at hk
    refine ⟨k - a.length, ?_⟩
    rw [List.getElem?_append_right hk, List.take_append, List.take_of_length_le hk, apply_append] at h
    exact h

theorem stop_same {c : Bool} {s : String} {d d' : Disk} {ws : List Write} (h : Stop c d ws d') (hw : ∀ w ∈ ws, w.path.stem ≠ s) : Same s d d' := by
  obtain ⟨k, rfl | ⟨w, pre, h1, -, rfl⟩⟩ := h
  · exact apply_same fun w hw' => hw w (List.mem_of_mem_take hw')
  · exact (apply_same fun w hw' => hw w (List.mem_of_mem_take hw')).trans (set_same (hw w (List.mem_of_getElem? h1.2)))

theorem stop_congr {c : Bool} {s : String} {d1 d2 d' : Disk} {ws : List Write} (h : Stop c d1 ws d') (hs : Same s d1 d2) :
    ∃ d'', Stop c d2 ws d'' ∧ Same s d'' d' := by
  obtain ⟨k, rfl | ⟨w, pre, h1, h2, rfl⟩⟩ := h
  · exact ⟨_, ⟨k, .inl rfl⟩, (apply_congr _ hs).symm⟩
  · exact ⟨_, ⟨k, .inr ⟨w, pre, h1, h2, rfl⟩⟩, (set_congr (apply_congr _ hs) _ _).symm⟩

theorem stop_nil {c : Bool} {d d' : Disk} (h : Stop c d [] d') : d' = d := by
  obtain ⟨k, rfl | ⟨w, pre, h1, -, -⟩⟩ := h
  · simp [apply]
  · simp at h1

/-! ### Loops -/

/-- A step looks only at the files of its solution, and writes only those. -/
structure Local (step : Disk → String → List Write × Bool) : Prop where
  looks : ∀ s d d', Same s d d' → step d s = step d' s
  writes : ∀ s d, ∀ w ∈ (step d s).1, w.path.stem = s

theorem loop_run {step : Disk → String → List Write × Bool} (hl : Local step) : ∀ (l : List String) (d : Disk), l.Nodup → ∀ s,
    (s ∉ l → Same s d (apply d (loop step d l).1)) ∧
    (s ∈ l → ((loop step d l).2 = false → (step d s).2 = false ∧ Same s (apply d (step d s).1) (apply d (loop step d l).1)) ∧
      (Same s d (apply d (loop step d l).1) ∨ Same s (apply d (step d s).1) (apply d (loop step d l).1)))
  | [], d, _, s => ⟨fun _ => Same.refl _ _, fun h => by cases h⟩
  | t :: ts, d, hn, s => by
    obtain ⟨ht, hn⟩ := List.nodup_cons.mp hn
    have hother : s ≠ t → Same s d (apply d (step d t).1) := fun hne =>
      apply_same fun w hw => by rw [hl.writes t d w hw]; exact fun e => hne e.symm
    by_cases ha : (step d t).2 = true
    · have e : loop step d (t :: ts) = ((step d t).1, true) := by
        conv => lhs; unfold loop
        rw [if_pos ha]
      rw [e]
      refine ⟨fun h => hother fun e => h (by simp [e]), fun h => ⟨fun h' => by simp at h', ?_⟩⟩
      by_cases hst : s = t
      · subst hst; exact .inr (Same.refl _ _)
      · exact .inl (hother hst)
    · have e : loop step d (t :: ts) = ((step d t).1 ++ (loop step (apply d (step d t).1) ts).1, (loop step (apply d (step d t).1) ts).2) := by
        conv => lhs; unfold loop
        rw [if_neg ha]
      rw [e]
      dsimp only
      rw [apply_append]
      have ih := loop_run hl ts (apply d (step d t).1) hn s
      refine ⟨fun h => ?_, fun h => ?_⟩
      · have h1 : s ≠ t := fun e => h (by simp [e])
        exact (hother h1).trans (ih.1 fun h2 => h (by simp [h2]))
      · by_cases hst : s = t
        · subst hst
          exact ⟨fun _ => ⟨by simpa using ha, ih.1 ht⟩, .inr (ih.1 ht)⟩
        · have hs : s ∈ ts := by
            rcases List.mem_cons.mp h with e | h
            · exact absurd e hst
            · exact h
          have heq : step (apply d (step d t).1) s = step d s := (hl.looks s _ _ (hother hst)).symm
          have hcong := apply_congr (step d s).1 (hother hst)
          obtain ⟨i1, i2⟩ := ih.2 hs
          rw [heq] at i1 i2
          refine ⟨fun h' => ⟨(i1 h').1, hcong.trans (i1 h').2⟩, ?_⟩
          rcases i2 with i2 | i2
          · exact .inl ((hother hst).trans i2)
          · exact .inr (hcong.trans i2)

theorem loop_stop {c : Bool} {step : Disk → String → List Write × Bool} (hl : Local step) : ∀ (l : List String) (d d' : Disk), l.Nodup →
    Stop c d (loop step d l).1 d' → ∃ s0, ∀ s, Same s d d' ∨ (s ∈ l ∧ Same s (apply d (step d s).1) d') ∨
      (s = s0 ∧ s ∈ l ∧ ∃ d'', Stop c d (step d s).1 d'' ∧ Same s d'' d')
  | [], d, d', _, h => ⟨"", fun s => .inl (by rw [stop_nil h]; exact Same.refl _ _)⟩
  | t :: ts, d, d', hn, h => by
    obtain ⟨ht, hn⟩ := List.nodup_cons.mp hn
    have hwr : ∀ {s}, s ≠ t → ∀ w ∈ (step d t).1, w.path.stem ≠ s := fun hne w hw => by
      rw [hl.writes t d w hw]; exact fun e => hne e.symm
    have first : Stop c d (step d t).1 d' → ∃ s0, ∀ s, Same s d d' ∨ (s ∈ t :: ts ∧ Same s (apply d (step d s).1) d') ∨
        (s = s0 ∧ s ∈ t :: ts ∧ ∃ d'', Stop c d (step d s).1 d'' ∧ Same s d'' d') := by
      intro hc
      refine ⟨t, fun s => ?_⟩
      by_cases hst : s = t
      · subst hst
        exact .inr (.inr ⟨rfl, by simp, d', hc, Same.refl _ _⟩)
      · exact .inl (stop_same hc (hwr hst))
    by_cases ha : (step d t).2 = true
    · have e : loop step d (t :: ts) = ((step d t).1, true) := by
        conv => lhs; unfold loop
        rw [if_pos ha]
      rw [e] at h
      exact first h
    · have e : loop step d (t :: ts) = ((step d t).1 ++ (loop step (apply d (step d t).1) ts).1, (loop step (apply d (step d t).1) ts).2) := by
        conv => lhs; unfold loop
        rw [if_neg ha]
      rw [e] at h
      rcases stop_split h with h | h
      · exact first h
      · obtain ⟨s0, ih⟩ := loop_stop hl ts _ d' hn h
        refine ⟨s0, fun s => ?_⟩
        by_cases hst : s = t
        · subst hst
          rcases ih s with i | ⟨i, -⟩ | ⟨-, i, -⟩
          · exact .inr (.inl ⟨by simp, i⟩)
          · exact absurd i ht
          · exact absurd i ht
        · have hother : Same s d (apply d (step d t).1) := apply_same (hwr hst)
          have heq : step (apply d (step d t).1) s = step d s := (hl.looks s _ _ hother).symm
          rcases ih s with i | ⟨i1, i2⟩ | ⟨i0, i1, d'', i2, i3⟩
          · exact .inl (hother.trans i)
          · rw [heq] at i2
            exact .inr (.inl ⟨by simp [i1], (apply_congr _ hother).trans i2⟩)
          · rw [heq] at i2
            obtain ⟨e, he1, he2⟩ := stop_congr i2 hother.symm
            exact .inr (.inr ⟨i0, by simp [i1], e, he1, he2.trans i3⟩)

/-! ### The creator -/

theorem step_local (plan : String → Outcome) : Local (step plan) where
  looks := by
    intro s d d' h
    unfold step
    rw [h .work .trajectory]
  writes := by
    intro s d w hw
    unfold step at hw
    split at hw
    · cases hw
    · split at hw
      · simp only [List.mem_singleton] at hw
        rw [hw]
      · cases hw
      · cases hw

theorem step_exists {plan : String → Outcome} {d : Disk} {s : String} {x : Text} (h : d (traj s) = some x) : step plan d s = ([], false) := by
  unfold step
  unfold traj at h
  rw [h]
  rfl

theorem step_missing {plan : String → Outcome} {d : Disk} {s : String} (h : d (traj s) = none) : step plan d s =
    match plan s with
    | .exported t => ([⟨traj s, t⟩], false)
    | .refused => ([], false)
    | .failed => ([], true) := by
  unfold step
  unfold traj at h
  rw [h, if_neg (by simp)]
  rfl

/-- C115. A run without an unforeseen exception: an existing trajectory stays as it is; a solution without one gets the trajectory of
its plan, or none if the plan is refused. Nothing else is changed. -/
theorem C115_complete (plan : String → Outcome) (d : Disk) (l : List String) (hn : l.Nodup) (h : (create plan d l).2 = false) :
    (∀ s ∈ l, ∀ x, d (traj s) = some x → after plan d l (traj s) = some x) ∧
    (∀ s ∈ l, d (traj s) = none → (∃ t, plan s = .exported t ∧ after plan d l (traj s) = some t) ∨
      (plan s = .refused ∧ after plan d l (traj s) = none)) ∧
    (∀ p : Path, (∀ s ∈ l, p ≠ traj s) → after plan d l p = d p) := by
  have key := loop_run (step_local plan) l d hn
  refine ⟨fun s hs x hx => ?_, fun s hs hx => ?_, fun p hp => ?_⟩
  · have := (((key s).2 hs).1 h).2 .work .trajectory
    rw [step_exists hx] at this
    exact this.trans hx
  · obtain ⟨h1, h2⟩ := ((key s).2 hs).1 h
    have := h2 .work .trajectory
    rw [step_missing hx] at this h1
    cases hp : plan s with
    | exported t =>
      rw [hp] at this
      exact .inl ⟨t, rfl, this.trans (by simp [apply, setFile, traj])⟩
    | refused =>
      rw [hp] at this
      exact .inr ⟨rfl, this.trans hx⟩
    | failed => rw [hp] at h1; cases h1
  · obtain ⟨f, s, k⟩ := p
    by_cases hs : s ∈ l
    · have := (((key s).2 hs).1 h).2 f k
      refine this.trans ?_
      have hne : (⟨f, s, k⟩ : Path) ≠ traj s := hp s hs
      cases hx : d (traj s) with
      | some x => rw [step_exists hx]; rfl
      | none =>
        rw [step_missing hx]
        cases plan s with
        | exported t =>
          change setFile d (traj s) t _ = _
          unfold setFile
          rw [if_neg hne]
        | refused => rfl
        | failed => rfl
    · exact (key s).1 hs f k

theorem loop_nil {st : Disk → String → List Write × Bool} {d : Disk} : ∀ {l : List String}, (∀ s ∈ l, st d s = ([], false)) →
    loop st d l = ([], false)
  | [], _ => rfl
  | s :: ss, h => by
    have h1 := h s (by simp)
    unfold loop
    rw [h1, if_neg (by simp)]
    change (loop st d ss) = _
    rw [loop_nil fun t ht => h t (by simp [ht])]

/-- C115. After a complete run a second run, in whatever order, writes nothing. -/
theorem C115_rerun (plan : String → Outcome) (d : Disk) (l l' : List String) (hn : l.Nodup) (hp : l'.Perm l) (h : (create plan d l).2 = false) :
    create plan (after plan d l) l' = ([], false) := by
  obtain ⟨h1, h2, -⟩ := C115_complete plan d l hn h
  refine loop_nil fun s hs => ?_
  have hs := hp.mem_iff.mp hs
  cases hx : d (traj s) with
  | some x => exact step_exists (h1 s hs x hx)
  | none =>
    rcases h2 s hs hx with ⟨t, -, h⟩ | ⟨h, h'⟩
    · exact step_exists h
    · rw [step_missing h', h]

/-- C115. A run that was stopped between two files can be continued: the next complete run, in whatever order, leads to the disk of an uninterrupted
one. -/
theorem C115_resume (plan : String → Outcome) (d : Disk) (l l' : List String) (hn : l.Nodup) (hp : l'.Perm l) (h : (create plan d l).2 = false)
    (k : Nat) (h' : (create plan (apply d ((create plan d l).1.take k)) l').2 = false) :
    after plan (apply d ((create plan d l).1.take k)) l' = after plan d l := by
  have hn' := hp.nodup_iff.mpr hn
  have key := loop_run (step_local plan) l d hn
  generalize hm : apply d ((create plan d l).1.take k) = m at h' ⊢
  have key' := loop_run (step_local plan) l' m hn'
  obtain ⟨s0, hc⟩ := loop_stop (c := true) (step_local plan) l d m hn ⟨k, .inl hm.symm⟩
  funext p
  obtain ⟨f, s, k'⟩ := p
  by_cases hs : s ∈ l
  · have e1 : Same s (apply d (step plan d s).1) (after plan d l) := (((key s).2 hs).1 h).2
    have e2 : Same s (apply m (step plan m s).1) (after plan m l') := (((key' s).2 (hp.mem_iff.mpr hs)).1 h').2
    have fresh : Same s d m → Same s (apply m (step plan m s).1) (apply d (step plan d s).1) := fun i => by
      rw [← (step_local plan).looks s d m i]
      exact apply_congr _ i.symm
    have done : Same s (apply d (step plan d s).1) m → Same s (apply m (step plan m s).1) (apply d (step plan d s).1) := fun i => by
      have hm0 := i .work .trajectory
      have : (step plan m s).1 = [] := by
        cases hx : d (traj s) with
        | some x =>
          rw [step_exists hx] at hm0
          rw [step_exists (hm0.trans hx)]
        | none =>
          rw [step_missing hx] at hm0
          cases hpl : plan s with
          | exported t =>
            rw [hpl] at hm0
            have : m (traj s) = some t := hm0.trans (by simp [apply, setFile, traj])
            rw [step_exists this]
          | refused =>
            rw [hpl] at hm0
            rw [step_missing (hm0.trans hx), hpl]
          | failed =>
            rw [hpl] at hm0
            rw [step_missing (hm0.trans hx), hpl]
      rw [this]
      exact i.symm
    have e3 : Same s (apply m (step plan m s).1) (apply d (step plan d s).1) := by
      rcases hc s with i | ⟨-, i⟩ | ⟨-, -, d'', ⟨j, rfl | ⟨w, pre, ⟨hf, -⟩, -⟩⟩, i⟩
      · exact fresh i
      · exact done i
      · -- a step writes at most one file
        by_cases hj : (step plan d s).1.length ≤ j
        · rw [List.take_of_length_le hj] at i
          exact done i
        · have hlen : (step plan d s).1.length ≤ 1 := by
            unfold step
            split
            · simp
            · split <;> simp
          have : j = 0 := by omega
          subst this
          exact fresh i
      · cases hf
    exact (((e2.symm).trans e3).trans e1 f k').symm
  · have e1 := (key s).1 hs f k'
    have e2 := (key' s).1 (fun h => hs (hp.mem_iff.mp h)) f k'
    rcases hc s with i | ⟨i, -⟩ | ⟨-, i, -⟩
    · exact (e2.trans (i f k')).trans e1.symm
    · exact absurd i hs
    · exact absurd i hs

theorem step_writes {plan : String → Outcome} {d : Disk} {s : String} {w : Write} (h : w ∈ (step plan d s).1) :
    d (traj s) = none ∧ w.path = traj s ∧ plan s = .exported w.text := by
  cases hx : d (traj s) with
  | some x => rw [step_exists hx] at h; cases h
  | none =>
    rw [step_missing hx] at h
    cases hp : plan s with
    | exported t =>
      rw [hp] at h
      simp only [List.mem_singleton] at h
      rw [h]
      exact ⟨rfl, rfl, rfl⟩
    | refused => rw [hp] at h; cases h
    | failed => rw [hp] at h; cases h

theorem apply_step {plan : String → Outcome} {d : Disk} {s : String} : ∀ {ws : List Write}, (∀ w ∈ ws, w ∈ (step plan d s).1) → ∀ {d1 : Disk} (p : Path),
    apply d1 ws p = d1 p ∨ (p = traj s ∧ d (traj s) = none ∧ ∃ t, plan s = .exported t ∧ apply d1 ws p = some t) := by
  intro ws
  induction ws with
  | nil => intro _ d1 p; exact .inl rfl
  | cons w ws ih =>
    intro hw d1 p
    rw [apply_cons]
    rcases ih (fun x hx => hw x (by simp [hx])) (d1 := setFile d1 w.path w.text) p with h | h
    · obtain ⟨h0, h1, h2⟩ := step_writes (hw w (by simp))
      rw [h]
      by_cases hp : p = w.path
      · right
        refine ⟨hp.trans h1, h0, w.text, h2, ?_⟩
        unfold setFile; rw [if_pos hp]
      · left
        unfold setFile; rw [if_neg hp]
    · exact .inr h

/-- C115. Whatever the runs and crashes: a file that is no trajectory of a solution is untouched; every trajectory is as at the start, or there was
none and it is exactly the trajectory of its plan, except for at most one solution per crash, whose file is a first part of that trajectory. -/
theorem C115_history (plan : String → Outcome) (solutions : List String) (hn : solutions.Nodup) (d0 : Disk) (n : Nat) (d : Disk)
    (h : History plan solutions d0 n d) :
    (∀ p : Path, (∀ s ∈ solutions, p ≠ traj s) → d p = d0 p) ∧
    ∃ broken : Finset String, broken.card ≤ n ∧ ∀ s ∈ solutions, d (traj s) = d0 (traj s) ∨
      d0 (traj s) = none ∧ ∃ t, plan s = .exported t ∧ (d (traj s) = some t ∨ s ∈ broken ∧ ∃ pre, pre <+: t ∧ d (traj s) = some pre) := by
  -- one run: a stem is the same, or done, or (only one, after a crash) broken
  have one : ∀ {d d' : Disk} {order : List String} {c : Finset String}, order.Perm solutions →
      (∀ s, Same s d d' ∨ (s ∈ order ∧ Same s (apply d (step plan d s).1) d') ∨
        (s ∈ c ∧ s ∈ order ∧ ∃ d'', Stop false d (step plan d s).1 d'' ∧ Same s d'' d')) →
      (∀ p : Path, (∀ s ∈ solutions, p ≠ traj s) → d' p = d p) ∧
      ∀ s, d' (traj s) = d (traj s) ∨ d (traj s) = none ∧ ∃ t, plan s = .exported t ∧
        (d' (traj s) = some t ∨ s ∈ c ∧ ∃ pre, pre <+: t ∧ d' (traj s) = some pre) := by
    intro d d' order c hp hall
    refine ⟨fun p hne => ?_, fun s => ?_⟩
    · obtain ⟨f, s, k⟩ := p
      rcases hall s with i | ⟨i1, i2⟩ | ⟨-, i1, d'', ⟨j, rfl | ⟨w, pre, ⟨-, h1⟩, -, rfl⟩⟩, i3⟩
      · exact i f k
      · refine (i2 f k).trans ?_
        rcases apply_step (fun w hw => hw) (d1 := d) ⟨f, s, k⟩ with e | ⟨e, -⟩
        · exact e
        · exact absurd e (hne s (hp.mem_iff.mp i1))
      · refine (i3 f k).trans ?_
        rcases apply_step (fun w hw => List.mem_of_mem_take hw) (d1 := d) ⟨f, s, k⟩ with e | ⟨e, -⟩
        · exact e
        · exact absurd e (hne s (hp.mem_iff.mp i1))
      · refine (i3 f k).trans ?_
        unfold setFile
        rw [if_neg]
        · rcases apply_step (fun w hw => List.mem_of_mem_take hw) (d1 := d) ⟨f, s, k⟩ with e | ⟨e, -⟩
          · exact e
          · exact absurd e (hne s (hp.mem_iff.mp i1))
        · rw [(step_writes (List.mem_of_getElem? h1)).2.1]
          exact hne s (hp.mem_iff.mp i1)
    · rcases hall s with i | ⟨-, i2⟩ | ⟨ic, -, d'', ⟨j, rfl | ⟨w, pre, ⟨-, h1⟩, h2, rfl⟩⟩, i3⟩
      · exact .inl (i .work .trajectory)
      · have e0 := i2 .work .trajectory
        rcases apply_step (fun w hw => hw) (d1 := d) (traj s) with e | ⟨-, e1, t, e2, e3⟩
        · exact .inl (e0.trans e)
        · exact .inr ⟨e1, t, e2, .inl (e0.trans e3)⟩
      · have e0 := i3 .work .trajectory
        rcases apply_step (fun w hw => List.mem_of_mem_take hw) (d1 := d) (traj s) with e | ⟨-, e1, t, e2, e3⟩
        · exact .inl (e0.trans e)
        · exact .inr ⟨e1, t, e2, .inl (e0.trans e3)⟩
      · have e0 := i3 .work .trajectory
        obtain ⟨w0, w1, w2⟩ := step_writes (List.mem_of_getElem? h1)
        refine .inr ⟨w0, w.text, w2, .inr ⟨ic, pre, h2, e0.trans ?_⟩⟩
        unfold setFile
        rw [w1]
        exact if_pos rfl
  -- composing
  have compose : ∀ {d d' : Disk} {broken c : Finset String},
      (∀ s ∈ solutions, d (traj s) = d0 (traj s) ∨
        d0 (traj s) = none ∧ ∃ t, plan s = .exported t ∧ (d (traj s) = some t ∨ s ∈ broken ∧ ∃ pre, pre <+: t ∧ d (traj s) = some pre)) →
      (∀ s, d' (traj s) = d (traj s) ∨ d (traj s) = none ∧ ∃ t, plan s = .exported t ∧
        (d' (traj s) = some t ∨ s ∈ c ∧ ∃ pre, pre <+: t ∧ d' (traj s) = some pre)) →
      ∀ s ∈ solutions, d' (traj s) = d0 (traj s) ∨
        d0 (traj s) = none ∧ ∃ t, plan s = .exported t ∧ (d' (traj s) = some t ∨ s ∈ broken ∪ c ∧ ∃ pre, pre <+: t ∧ d' (traj s) = some pre) := by
    intro d d' broken c h1 h2 s hs
    rcases h2 s with e | ⟨e1, t, e2, e3⟩
    · rcases h1 s hs with i | ⟨i1, t, i2, i3⟩
      · exact .inl (e.trans i)
      · refine .inr ⟨i1, t, i2, ?_⟩
        rcases i3 with i3 | ⟨ib, pre, i3, i4⟩
        · exact .inl (e.trans i3)
        · exact .inr ⟨Finset.mem_union_left _ ib, pre, i3, e.trans i4⟩
    · rcases h1 s hs with i | ⟨i1, t', -, i3⟩
      · refine .inr ⟨i ▸ e1, t, e2, ?_⟩
        rcases e3 with e3 | ⟨ec, pre, e3, e4⟩
        · exact .inl e3
        · exact .inr ⟨Finset.mem_union_right _ ec, pre, e3, e4⟩
      · rcases i3 with i3 | ⟨-, pre, -, i3⟩
        · rw [i3] at e1; cases e1
        · rw [i3] at e1; cases e1
  induction h with
  | start => exact ⟨fun _ _ => rfl, ∅, by simp, fun s _ => .inl rfl⟩
  | @run n d order _ hp ih =>
    obtain ⟨ih1, broken, hb, ih2⟩ := ih
    have hord := hp.nodup_iff.mpr hn
    have h1 := one (c := ∅) (d := d) (d' := after plan d order) hp (fun s => by
      by_cases hs : s ∈ order
      · rcases ((loop_run (step_local plan) order d hord s).2 hs).2 with i | i
        · exact .inl i
        · exact .inr (.inl ⟨hs, i⟩)
      · exact .inl ((loop_run (step_local plan) order d hord s).1 hs))
    refine ⟨fun p hp' => (h1.1 p hp').trans (ih1 p hp'), broken ∪ ∅, by simpa using hb, compose ih2 h1.2⟩
  | @crash n d d' order _ hp hc ih =>
    obtain ⟨ih1, broken, hb, ih2⟩ := ih
    obtain ⟨s0, hs0⟩ := loop_stop (step_local plan) order d d' (hp.nodup_iff.mpr hn) (stop_of_crashed hc)
    have h1 := one (c := {s0}) (d := d) (d' := d') hp (fun s => by
      rcases hs0 s with i | i | ⟨i, i'⟩
      · exact .inl i
      · exact .inr (.inl i)
      · exact .inr (.inr ⟨by simp [i], i'⟩))
    refine ⟨fun p hp' => (h1.1 p hp').trans (ih1 p hp'), broken ∪ {s0}, ?_, compose ih2 h1.2⟩
    exact (Finset.card_union_le _ _).trans (by simpa using hb)

/-- C115. No run ever replaces a file: a trajectory that exists, also one broken by a crash, is kept by all later runs. -/
theorem C115_kept (plan : String → Outcome) (solutions : List String) (hn : solutions.Nodup) (d : Disk) (n : Nat) (d' : Disk)
    (h : History plan solutions d n d') (p : Path) (x : Text) (hx : d p = some x) : d' p = some x := by
  obtain ⟨h1, broken, -, h2⟩ := C115_history plan solutions hn d n d' h
  by_cases hp : ∃ s ∈ solutions, p = traj s
  · obtain ⟨s, hs, rfl⟩ := hp
    rcases h2 s hs with e | ⟨e, -⟩
    · exact e.trans hx
    · rw [hx] at e; cases e
  · push Not at hp
    exact (h1 p hp).trans hx

/-- C115. A plan with an unforeseen exception ends the run: the solutions before it are done, those after it are not, and all later runs in this order end
there, too, without writing anything. -/
theorem C115_failed (plan : String → Outcome) (d : Disk) (before after' : List String) (s : String) (hn : (before ++ s :: after').Nodup)
    (hb : ∀ t ∈ before, plan t ≠ .failed) (hs : plan s = .failed) (hd : d (traj s) = none) :
    (create plan d (before ++ s :: after')).2 = true ∧
    after plan d (before ++ s :: after') = after plan d before ∧
    create plan (after plan d (before ++ s :: after')) (before ++ s :: after') = ([], true) := by
  have loop_append : ∀ (a b : List String) (d : Disk), (loop (step plan) d a).2 = false → loop (step plan) d (a ++ b) =
      ((loop (step plan) d a).1 ++ (loop (step plan) (apply d (loop (step plan) d a).1) b).1,
        (loop (step plan) (apply d (loop (step plan) d a).1) b).2) := by
    intro a b
    induction a with
    | nil => intro d _; rfl
    | cons x xs ih =>
      intro d h
      by_cases hx : (step plan d x).2 = true
      · rw [loop, if_pos hx] at h; cases h
      · rw [loop, if_neg hx] at h
        rw [List.cons_append, loop, if_neg hx, ih _ h]
        rw [loop, if_neg hx]
        simp only [List.append_assoc, apply_append]
  have hok : ∀ (a : List String) (d : Disk), (∀ t ∈ a, plan t ≠ .failed) → (loop (step plan) d a).2 = false := by
    intro a
    induction a with
    | nil => intro d _; rfl
    | cons x xs ih =>
      intro d h
      have hx : (step plan d x).2 = false := by
        have := h x (by simp)
        unfold step
        split
        · rfl
        · split
          · rfl
          · rfl
          · contradiction
      rw [loop, if_neg (by simp [hx])]
      exact ih _ fun t ht => h t (by simp [ht])
  have hnb : before.Nodup := (List.nodup_append.mp hn).1
  have hsb : s ∉ before := fun h => (List.nodup_append.mp hn).2.2 s h s (by simp) rfl
  have hthere : ∀ (d : Disk), d (traj s) = none → loop (step plan) d (s :: after') = ([], true) := by
    intro d h
    have h2 : step plan d s = ([], true) := by rw [step_missing h, hs]
    rw [loop, h2, if_pos rfl]
  have hd' : after plan d before (traj s) = none := ((loop_run (step_local plan) before d hnb s).1 hsb .work .trajectory).trans hd
  have e : create plan d (before ++ s :: after') = ((create plan d before).1, true) := by
    unfold create
    rw [loop_append before _ d (hok before d hb), hthere (apply d (loop (step plan) d before).1) hd']
    simp
  refine ⟨by rw [e], by unfold after; rw [e], ?_⟩
  have ea : after plan d (before ++ s :: after') = after plan d before := by unfold after; rw [e]
  rw [ea]
  have hre : create plan (after plan d before) before = ([], false) :=
    C115_rerun plan d before before hnb (List.Perm.refl _) (hok before d hb)
  unfold create at hre ⊢
  rw [loop_append before _ _ (hok before _ hb), hre]
  change ([] ++ (loop (step plan) (after plan d before) (s :: after')).1, (loop (step plan) (after plan d before) (s :: after')).2) = _
  rw [hthere _ hd']
  rfl

/-! ### The multi-agent creator -/

theorem writes_stem {f : Folder} {s : String} {a : Attempt} {w : Write} (h : w ∈ a.writes f s) : w.path.stem = s := by
  cases a with
  | done p q r =>
    simp only [Attempt.writes, List.mem_cons, List.not_mem_nil, or_false] at h
    rcases h with rfl | rfl | rfl <;> rfl
  | refused => cases h
  | halfway p q =>
    simp only [Attempt.writes, List.mem_cons, List.not_mem_nil, or_false] at h
    rcases h with rfl | rfl <;> rfl
  | failed p q n =>
    have h := List.mem_of_mem_take h
    simp only [List.mem_cons, List.not_mem_nil, or_false] at h
    rcases h with rfl | rfl <;> rfl

theorem maStep_local (enhanced vanilla : String → Attempt) : Local (maStep enhanced vanilla) where
  looks := by
    intro s d d' h
    unfold maStep
    rw [h .enhanced .trajectory, h .vanilla .trajectory]
  writes := by
    intro s d w hw
    unfold maStep at hw
    split at hw
    · cases hw
    · split at hw
      · rcases List.mem_append.mp hw with h | h
        · exact writes_stem h
        · exact writes_stem h
      · exact writes_stem hw
      · cases hw
      · exact writes_stem hw

/-- Of the vanilla trajectory exists something only if everything before it is there. -/
def Ordered (possible : String → Attempt → Prop) (vanilla : String → Attempt) (broken : Finset String) (d : Disk) (s : String) : Prop :=
  ∀ x, d ⟨.vanilla, s, .trajectory⟩ = some x → (∃ a b c, possible s (.done a b c) ∧ Holds d .enhanced s a b c) ∧
    ∃ a b c, vanilla s = .done a b c ∧ (Holds d .vanilla s a b c ∨ s ∈ broken ∧ ∃ pre, pre <+: c ∧ Holds d .vanilla s a b pre)

theorem Ordered.congr {possible : String → Attempt → Prop} {vanilla : String → Attempt} {broken : Finset String} {d d' : Disk} {s : String}
    (h : Ordered possible vanilla broken d s) (hs : Same s d d') : Ordered possible vanilla broken d' s := by
  intro x hx
  rw [hs] at hx
  obtain ⟨⟨a, b, c, h1, h2⟩, a', b', c', h3, h4⟩ := h x hx
  refine ⟨⟨a, b, c, h1, ?_⟩, a', b', c', h3, ?_⟩
  · unfold Holds at *; rw [hs, hs, hs]; exact h2
  · unfold Holds at *; simp only [hs .vanilla _]; exact h4

theorem Ordered.mono {possible : String → Attempt → Prop} {vanilla : String → Attempt} {broken broken' : Finset String} {d : Disk} {s : String}
    (h : Ordered possible vanilla broken d s) (hb : broken ⊆ broken') : Ordered possible vanilla broken' d s := by
  intro x hx
  obtain ⟨h1, a', b', c', h3, h4⟩ := h x hx
  refine ⟨h1, a', b', c', h3, ?_⟩
  rcases h4 with h4 | ⟨h4, h5⟩
  · exact .inl h4
  · exact .inr ⟨hb h4, h5⟩

theorem not_vanilla {d d' : Disk} {s : String} {a : Attempt} {c : Bool} (h : Stop c d (a.writes .enhanced s) d') :
    d' ⟨.vanilla, s, .trajectory⟩ = d ⟨.vanilla, s, .trajectory⟩ := by
  have hw : ∀ w ∈ a.writes .enhanced s, w.path ≠ ⟨.vanilla, s, .trajectory⟩ := by
    intro w hw e
    cases a with
    | done p q r =>
      simp only [Attempt.writes, List.mem_cons, List.not_mem_nil, or_false] at hw
      rcases hw with rfl | rfl | rfl <;> simp at e
    | refused => cases hw
    | halfway p q =>
      simp only [Attempt.writes, List.mem_cons, List.not_mem_nil, or_false] at hw
      rcases hw with rfl | rfl <;> simp at e
    | failed p q n =>
      have hw := List.mem_of_mem_take hw
      simp only [List.mem_cons, List.not_mem_nil, or_false] at hw
      rcases hw with rfl | rfl <;> simp at e
  have happ : ∀ (ws : List Write) (d : Disk), (∀ w ∈ ws, w.path ≠ ⟨.vanilla, s, .trajectory⟩) →
      apply d ws ⟨.vanilla, s, .trajectory⟩ = d ⟨.vanilla, s, .trajectory⟩ := by
    intro ws
    induction ws with
    | nil => intro d _; rfl
    | cons w ws ih =>
      intro d h
      rw [apply_cons, ih _ fun x hx => h x (by simp [hx])]
      unfold setFile
      rw [if_neg (fun e => h w (by simp) e.symm)]
  obtain ⟨k, rfl | ⟨w, pre, ⟨-, h1⟩, h2, rfl⟩⟩ := h
  · exact happ _ _ fun w hw' => hw w (List.mem_of_mem_take hw')
  · unfold setFile
    rw [if_neg (fun e => hw w (List.mem_of_getElem? h1) e.symm)]
    exact happ _ _ fun w hw' => hw w (List.mem_of_mem_take hw')

theorem ordered_stop {possible : String → Attempt → Prop} {enhanced vanilla : String → Attempt} {broken : Finset String} {d d' : Disk} {s : String}
    {c : Bool} (hposs : possible s (enhanced s)) (h : Ordered possible vanilla broken d s) (hst : Stop c d (maStep enhanced vanilla d s).1 d') :
    Ordered possible vanilla (if c then broken else insert s broken) d' s := by
  have hsub : broken ⊆ (if c then broken else insert s broken) := by
    cases c
    · exact Finset.subset_insert _ _
    · exact Finset.Subset.refl _
  cases hv : d ⟨.vanilla, s, .trajectory⟩ with
  | some x =>
    obtain ⟨⟨a, b, c', -, h2⟩, -⟩ := h x hv
    have : maStep enhanced vanilla d s = ([], false) := by
      unfold maStep
      rw [if_pos ⟨by rw [h2.2.2]; rfl, by rw [hv]; rfl⟩]
    rw [this] at hst
    rw [stop_nil hst]
    exact h.mono hsub
  | none =>
    have hstep : maStep enhanced vanilla d s = match enhanced s with
        | .done a b c => ((enhanced s).writes .enhanced s ++ (vanilla s).writes .vanilla s,
            match vanilla s with | .failed _ _ _ => true | _ => false)
        | .failed a b n => ((enhanced s).writes .enhanced s, true)
        | .refused => ([], false)
        | .halfway a b => ((enhanced s).writes .enhanced s, false) := by
      unfold maStep
      rw [if_neg (by rw [hv]; simp)]
      rfl
    rw [hstep] at hst
    have trivial' : d' ⟨.vanilla, s, .trajectory⟩ = none → Ordered possible vanilla (if c then broken else insert s broken) d' s := by
      intro e x hx
      rw [e] at hx; cases hx
    cases he : enhanced s with
    | refused =>
      rw [he] at hst
      rw [stop_nil hst]
      exact h.mono hsub
    | halfway a b =>
      rw [he] at hst
      dsimp only at hst
      exact trivial' ((not_vanilla hst).trans hv)
    | failed a b n =>
      rw [he] at hst
      dsimp only at hst
      exact trivial' ((not_vanilla hst).trans hv)
    | done a b c1 =>
      rw [he] at hst hposs
      dsimp only at hst
      rcases stop_split hst with hst | hst
      · exact trivial' ((not_vanilla hst).trans hv)
      · -- the enhanced files are all written
        generalize hd1 : apply d ((Attempt.done a b c1).writes .enhanced s) = d1 at hst
        have hE : Holds d1 .enhanced s a b c1 := by
          rw [← hd1]
          refine ⟨?_, ?_, ?_⟩ <;> simp [apply, Attempt.writes, setFile]
        have hV : d1 ⟨.vanilla, s, .trajectory⟩ = none := by
          rw [← hd1]
          exact (not_vanilla (c := true) (a := .done a b c1) ⟨3, .inl rfl⟩).trans hv
        have hkeepE : ∀ (ws : List Write), (∀ w ∈ ws, w.path.folder = .vanilla) → Holds (apply d1 ws) .enhanced s a b c1 := by
          intro ws hws
          have : ∀ k, apply d1 ws ⟨.enhanced, s, k⟩ = d1 ⟨.enhanced, s, k⟩ := by
            intro k
            clear hst hV hE hd1
            induction ws generalizing d1 with
            | nil => rfl
            | cons w ws ih =>
              rw [apply_cons, ih _ fun x hx => hws x (by simp [hx])]
              unfold setFile
              rw [if_neg]
              intro e
              have := hws w (by simp)
              rw [← e] at this
              cases this
          unfold Holds
          rw [this, this, this]
          exact hE
        cases hva : vanilla s with
        | refused =>
          rw [hva] at hst
          rw [stop_nil hst]
          intro x hx; rw [hV] at hx; cases hx
        | halfway p q =>
          rw [hva] at hst
          apply trivial'
          obtain ⟨k, rfl | ⟨w, pre, ⟨-, h1⟩, h2, rfl⟩⟩ := hst
          · rcases k with _ | _ | k <;> simp [apply, Attempt.writes, setFile, hV]
          · rcases k with _ | _ | k
            · simp only [Attempt.writes, List.getElem?_cons_zero, Option.some.injEq] at h1
              subst h1
              simp [apply, Attempt.writes, setFile, hV]
            · simp only [Attempt.writes, List.getElem?_cons_zero, List.getElem?_cons_succ, Option.some.injEq] at h1
              subst h1
              simp [apply, Attempt.writes, setFile, hV]
            · simp [Attempt.writes] at h1
        | failed p q n =>
          rw [hva] at hst
          apply trivial'
          have hws : ∀ w ∈ (Attempt.failed p q n).writes .vanilla s, w.path ≠ ⟨.vanilla, s, .trajectory⟩ := by
            intro w hw e
            have hw := List.mem_of_mem_take hw
            simp only [List.mem_cons, List.not_mem_nil, or_false] at hw
            rcases hw with rfl | rfl <;> simp at e
          have happ : ∀ (ws : List Write) (d : Disk), (∀ w ∈ ws, w.path ≠ ⟨.vanilla, s, .trajectory⟩) →
              apply d ws ⟨.vanilla, s, .trajectory⟩ = d ⟨.vanilla, s, .trajectory⟩ := by
            intro ws
            induction ws with
            | nil => intro d _; rfl
            | cons w ws ih =>
              intro d h
              rw [apply_cons, ih _ fun x hx => h x (by simp [hx])]
              unfold setFile
              rw [if_neg (fun e => h w (by simp) e.symm)]
          obtain ⟨k, rfl | ⟨w, pre, ⟨-, h1⟩, h2, rfl⟩⟩ := hst
          · exact (happ _ _ fun w hw' => hws w (List.mem_of_mem_take hw')).trans hV
          · unfold setFile
            rw [if_neg (fun e => hws w (List.mem_of_getElem? h1) e.symm)]
            exact (happ _ _ fun w hw' => hws w (List.mem_of_mem_take hw')).trans hV
        | done p q r =>
          rw [hva] at hst
          obtain ⟨k, rfl | ⟨w, pre, ⟨hc, h1⟩, h2, rfl⟩⟩ := hst
          · by_cases hk : k < 3
            · apply trivial'
              have : k = 0 ∨ k = 1 ∨ k = 2 := by omega
              rcases this with rfl | rfl | rfl <;> simp [apply, Attempt.writes, setFile, hV]
            · push Not at hk
              rw [List.take_of_length_le (by simpa [Attempt.writes] using hk)]
              intro x _
              refine ⟨⟨a, b, c1, hposs, hkeepE _ ?_⟩, p, q, r, hva, .inl ?_⟩
              · intro w hw
                simp only [Attempt.writes, List.mem_cons, List.not_mem_nil, or_false] at hw
                rcases hw with rfl | rfl | rfl <;> rfl
              · refine ⟨?_, ?_, ?_⟩ <;> simp [apply, Attempt.writes, setFile]
          · subst hc
            rcases k with _ | _ | _ | k
            · simp only [Attempt.writes, List.getElem?_cons_zero, Option.some.injEq] at h1
              subst h1
              apply trivial'
              simp [apply, Attempt.writes, setFile, hV]
            · simp only [Attempt.writes, List.getElem?_cons_zero, List.getElem?_cons_succ, Option.some.injEq] at h1
              subst h1
              apply trivial'
              simp [apply, Attempt.writes, setFile, hV]
            · simp only [Attempt.writes, List.getElem?_cons_zero, List.getElem?_cons_succ, Option.some.injEq] at h1
              subst h1
              intro x _
              refine ⟨⟨a, b, c1, hposs, ?_⟩, p, q, r, hva, .inr ⟨by simp, pre, h2, ?_⟩⟩
              · have := hkeepE (((Attempt.done p q r).writes .vanilla s).take 2 ++ [⟨⟨.vanilla, s, .trajectory⟩, pre⟩]) (by
                  intro w hw
                  simp only [Attempt.writes, List.take_succ_cons, List.take_zero, List.cons_append, List.nil_append, List.mem_cons,
                    List.not_mem_nil, or_false] at hw
                  rcases hw with rfl | rfl | rfl <;> rfl)
                rw [apply_append] at this
                exact this
              · refine ⟨?_, ?_, ?_⟩ <;> simp [apply, Attempt.writes, setFile]
            · simp [Attempt.writes] at h1

/-- C115, multi-agent creator. Whatever the runs and crashes from empty data sets: where the vanilla trajectory of a solution exists, the enhanced problem, plan
and trajectory are complete and of one and the same attempt, and so are the vanilla ones, except for at most one solution per crash, whose
vanilla trajectory is a first part of the right one. -/
theorem C115_ma_history (possible : String → Attempt → Prop) (vanilla : String → Attempt) (solutions : List String) (hn : solutions.Nodup)
    (n : Nat) (d : Disk) (h : MaHistory possible vanilla solutions n d) :
    ∃ broken : Finset String, broken.card ≤ n ∧ ∀ s x, d ⟨.vanilla, s, .trajectory⟩ = some x →
      (∃ a b c, possible s (.done a b c) ∧ Holds d .enhanced s a b c) ∧
      ∃ a b c, vanilla s = .done a b c ∧ (Holds d .vanilla s a b c ∨ s ∈ broken ∧ ∃ pre, pre <+: c ∧ Holds d .vanilla s a b pre) := by
  suffices ∃ broken : Finset String, broken.card ≤ n ∧ ∀ s, Ordered possible vanilla broken d s by
    obtain ⟨broken, h1, h2⟩ := this
    exact ⟨broken, h1, fun s x hx => h2 s x hx⟩
  induction h with
  | start => exact ⟨∅, by simp, fun s x hx => by cases hx⟩
  | @run n d order enhanced _ hp hposs ih =>
    obtain ⟨broken, hb, ih⟩ := ih
    have hord := hp.nodup_iff.mpr hn
    refine ⟨broken, hb, fun s => ?_⟩
    have hr := loop_run (maStep_local enhanced vanilla) order d hord s
    by_cases hs : s ∈ order
    · rcases (hr.2 hs).2 with i | i
      · exact (ih s).congr i
      · have := ordered_stop (c := true) (hposs s) (ih s) (d' := apply d (maStep enhanced vanilla d s).1)
          ⟨(maStep enhanced vanilla d s).1.length, .inl (by rw [List.take_length])⟩
        exact Ordered.congr this i
    · exact (ih s).congr (hr.1 hs)
  | @crash n d d' order enhanced _ hp hposs hc ih =>
    obtain ⟨broken, hb, ih⟩ := ih
    obtain ⟨s0, hs0⟩ := loop_stop (maStep_local enhanced vanilla) order d d' (hp.nodup_iff.mpr hn) (stop_of_crashed hc)
    refine ⟨insert s0 broken, (Finset.card_insert_le _ _).trans (by omega), fun s => ?_⟩
    rcases hs0 s with i | ⟨-, i⟩ | ⟨rfl, -, d'', i1, i2⟩
    · exact ((ih s).congr i).mono (Finset.subset_insert _ _)
    · have := ordered_stop (c := true) (hposs s) (ih s) (d' := apply d (maStep enhanced vanilla d s).1)
        ⟨(maStep enhanced vanilla d s).1.length, .inl (by rw [List.take_length])⟩
      exact (Ordered.congr this i).mono (Finset.subset_insert _ _)
    · exact Ordered.congr (ordered_stop (c := false) (hposs s) (ih s) i1) i2

/-- C115, multi-agent creator. After a run without an unforeseen exception, from whatever disk runs and crashes have led to, a solution whose two attempts succeed has both
trajectories; what an earlier run completed stays, and files left over by a crash before the vanilla trajectory are written anew. -/
theorem C115_ma_complete (possible : String → Attempt → Prop) (vanilla : String → Attempt) (solutions : List String) (hn : solutions.Nodup)
    (n : Nat) (d : Disk) (h : MaHistory possible vanilla solutions n d) (enhanced : String → Attempt) (order : List String)
    (hp : order.Perm solutions) (hok : (maCreate enhanced vanilla d order).2 = false) (s : String) (hs : s ∈ solutions) :
    (∀ x, d ⟨.vanilla, s, .trajectory⟩ = some x → ∀ f k, maAfter enhanced vanilla d order ⟨f, s, k⟩ = d ⟨f, s, k⟩) ∧
    (d ⟨.vanilla, s, .trajectory⟩ = none → ∀ a b c a' b' c', enhanced s = .done a b c → vanilla s = .done a' b' c' →
      Holds (maAfter enhanced vanilla d order) .enhanced s a b c ∧ Holds (maAfter enhanced vanilla d order) .vanilla s a' b' c') := by
  obtain ⟨broken, -, hinv⟩ := C115_ma_history possible vanilla solutions hn n d h
  have hr := (((loop_run (maStep_local enhanced vanilla) order d (hp.nodup_iff.mpr hn) s).2 (hp.mem_iff.mpr hs)).1 hok).2
  refine ⟨fun x hx f k => ?_, fun hx a b c a' b' c' h1 h2 => ?_⟩
  · obtain ⟨⟨a, b, c, -, hE⟩, -⟩ := hinv s x hx
    have : maStep enhanced vanilla d s = ([], false) := by
      unfold maStep
      rw [if_pos ⟨by rw [hE.2.2]; rfl, by rw [hx]; rfl⟩]
    have e := hr f k
    rw [this] at e
    exact e
  · have : (maStep enhanced vanilla d s).1 = (Attempt.done a b c).writes .enhanced s ++ (Attempt.done a' b' c').writes .vanilla s := by
      unfold maStep
      rw [if_neg (by rw [hx]; simp), h1, h2]
    rw [this] at hr
    constructor
    · refine ⟨?_, ?_, ?_⟩
      · exact (hr .enhanced .problem).trans (by simp [apply, Attempt.writes, setFile])
      · exact (hr .enhanced .plan).trans (by simp [apply, Attempt.writes, setFile])
      · exact (hr .enhanced .trajectory).trans (by simp [apply, Attempt.writes, setFile])
    · refine ⟨?_, ?_, ?_⟩
      · exact (hr .vanilla .problem).trans (by simp [apply, Attempt.writes, setFile])
      · exact (hr .vanilla .plan).trans (by simp [apply, Attempt.writes, setFile])
      · exact (hr .vanilla .trajectory).trans (by simp [apply, Attempt.writes, setFile])

/-! ### Examples -/

/-- Three plans: a good one, a refused one, and a good one. -/
def samplePlan : String → Outcome := fun s => if s = "a" then .exported "abc".toList else if s = "b" then .refused else .exported "xyz".toList

example : (create samplePlan (fun _ => none) ["a", "b", "c"]).2 = false ∧
    after samplePlan (fun _ => none) ["a", "b", "c"] (traj "a") = some "abc".toList ∧
    after samplePlan (fun _ => none) ["a", "b", "c"] (traj "b") = none := by decide

/-- A crash while the first trajectory is written: a later complete run leaves the part as it is. -/
example : ∃ d, History samplePlan ["a", "b", "c"] (fun _ => none) 1 d ∧ d (traj "a") = some "ab".toList ∧ d (traj "c") = some "xyz".toList := by
  refine ⟨_, .run (order := ["a", "b", "c"]) (.crash (order := ["a", "b", "c"]) .start (List.Perm.refl _) ⟨0, .inr ⟨⟨traj "a", "abc".toList⟩, "ab".toList,
    rfl, ?_, rfl⟩⟩) (List.Perm.refl _), ?_, ?_⟩
  · decide
  · decide
  · decide

/-- A plan with an unforeseen exception between two others. -/
example : (["a"] ++ "b" :: ["c"]).Nodup ∧ (create (fun s => if s = "b" then .failed else .exported []) (fun _ => none) ["a", "b", "c"]).1.length = 1 := by
  decide

/-- Multi-agent: a crash in the enhanced trajectory is repaired by the next run, one in the vanilla trajectory is not. -/
def sampleAttempt : String → Attempt := fun _ => .done "p".toList "q".toList "rst".toList

example : ∃ d, MaHistory (fun s a => a = sampleAttempt s) sampleAttempt ["a"] 1 d ∧ d ⟨.enhanced, "a", .trajectory⟩ = some "r".toList ∧
    maAfter sampleAttempt sampleAttempt d ["a"] ⟨.enhanced, "a", .trajectory⟩ = some "rst".toList := by
  refine ⟨_, .crash (order := ["a"]) (enhanced := sampleAttempt) .start (List.Perm.refl _) (fun _ => rfl) ⟨2, .inr ⟨⟨⟨.enhanced, "a", .trajectory⟩, "rst".toList⟩, "r".toList, rfl, ?_, rfl⟩⟩, ?_, ?_⟩
  · decide
  · decide
  · decide

example : ∃ d, MaHistory (fun s a => a = sampleAttempt s) sampleAttempt ["a"] 1 d ∧ d ⟨.vanilla, "a", .trajectory⟩ = some "r".toList ∧
    maAfter sampleAttempt sampleAttempt d ["a"] ⟨.vanilla, "a", .trajectory⟩ = some "r".toList := by
  refine ⟨_, .crash (order := ["a"]) (enhanced := sampleAttempt) .start (List.Perm.refl _) (fun _ => rfl) ⟨5, .inr ⟨⟨⟨.vanilla, "a", .trajectory⟩, "rst".toList⟩, "r".toList, rfl, ?_, rfl⟩⟩, ?_, ?_⟩
  · decide
  · decide
  · decide

end TrajectoryFiles
end Props
