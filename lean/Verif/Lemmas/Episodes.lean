import Verif.Model.Episodes
import Mathlib.Data.List.Count
import Mathlib.Data.List.Forall2
import Mathlib.Data.List.Nodup
import Mathlib.Tactic.Common

namespace Model
open Spec

variable {S : Type}

theorem lookup_incr {d d' : List (String × Nat)} {k : String} (h : incr d k = .ok d') (k' : String) :
    d'.lookup k' = if k' = k then (d.lookup k).map (· + 1) else d.lookup k' := by
  unfold incr at h
  split at h
  · simp at h
  · rename_i n hn
    simp only [Except.ok.injEq] at h
    subst h
    rw [Py.lookup_dictSet, hn]; rfl

theorem incr_ok {d : List (String × Nat)} {k : String} {n : Nat} (h : d.lookup k = some n) : ∃ d', incr d k = .ok d' := by
  unfold incr; rw [h]; exact ⟨_, rfl⟩

/-- The counters a call increases. -/
def bump : LogOp S → List String
  | .step s => if s.ok then [successKey s.action, "sum_successful_actions"] else [failKey s.action, "sum_failed_actions"]
  | .reason a r => [reasonKey a r]
  | _ => []

/-- The counters show the calls `cur`. -/
def Shows (names : List String) (info : List (String × Nat)) (cur : List (LogOp S)) : Prop :=
  ∀ k, info.lookup k = if k ∈ infoKeys names then some ((cur.flatMap bump).count k) else none

/-- The actions of a call are known. -/
def Known (names : List String) : LogOp S → Prop
  | .step s => s.action ∈ names
  | .reason a _ => a ∈ names
  | _ => True

theorem mem_infoKeys_success {names : List String} {a : String} (h : a ∈ names) : successKey a ∈ infoKeys names := by
  unfold infoKeys; simp only [List.mem_append, List.mem_map]
  exact Or.inl (Or.inl (Or.inl (Or.inl (Or.inr ⟨a, h, rfl⟩))))
theorem mem_infoKeys_fail {names : List String} {a : String} (h : a ∈ names) : failKey a ∈ infoKeys names := by
  unfold infoKeys; simp only [List.mem_append, List.mem_map]
  exact Or.inl (Or.inl (Or.inl (Or.inr ⟨a, h, rfl⟩)))
theorem mem_infoKeys_reason {names : List String} {a : String} (h : a ∈ names) (r : Reason) : reasonKey a r ∈ infoKeys names := by
  unfold infoKeys; simp only [List.mem_append, List.mem_map]
  cases r
  · exact Or.inl (Or.inl (Or.inr ⟨a, h, rfl⟩))
  · exact Or.inl (Or.inr ⟨a, h, rfl⟩)
  · exact Or.inr ⟨a, h, rfl⟩
theorem mem_infoKeys_sumS (names : List String) : "sum_successful_actions" ∈ infoKeys names := by
  unfold infoKeys; simp [recordColumns]
theorem mem_infoKeys_sumF (names : List String) : "sum_failed_actions" ∈ infoKeys names := by
  unfold infoKeys; simp [recordColumns]

/-- Increasing a counter that exists. -/
theorem incr_count {names : List String} {info : List (String × Nat)} {ks : List String} {k : String}
    (h : ∀ k', info.lookup k' = if k' ∈ infoKeys names then some (ks.count k') else none) (hk : k ∈ infoKeys names) :
    ∃ d, incr info k = .ok d ∧ ∀ k', d.lookup k' = if k' ∈ infoKeys names then some ((ks ++ [k]).count k') else none := by
  obtain ⟨d, hd⟩ := incr_ok (k := k) (by rw [h, if_pos hk])
  refine ⟨d, hd, fun k' => ?_⟩
  rw [lookup_incr hd]
  split
  · rename_i e; subst e
    rw [h, if_pos hk, if_pos hk]
    simp
  · rename_i hne
    rw [h]
    simp only [List.count_append]
    rw [List.count_singleton]
    simp [Ne.symm hne]

theorem shows_snoc {names : List String} {info : List (String × Nat)} {cur : List (LogOp S)} {o : LogOp S} :
    Shows names info (cur ++ [o]) ↔
      ∀ k', info.lookup k' = if k' ∈ infoKeys names then some ((cur.flatMap bump ++ bump o).count k') else none := by
  unfold Shows; simp

theorem successKey_inj {a b : String} (h : successKey a = successKey b) : a = b := by
  unfold successKey at h
  have h1 := congrArg String.toList h
  simp only [String.toList_append] at h1
  rw [List.append_left_inj, List.append_right_inj] at h1
  exact String.ext h1

/-- The history shows all successes. -/
def HistShows (names : List String) (hist : List (String × Nat)) (all : List (LogOp S)) : Prop :=
  ∀ a, hist.lookup (successKey a) = if a ∈ names then some (stepsOf a true all) else none

theorem stepsOf_snoc (a : String) (ok : Bool) (l : List (LogOp S)) (o : LogOp S) :
    stepsOf a ok (l ++ [o]) = stepsOf a ok l + stepsOf a ok [o] := by unfold stepsOf; rw [List.countP_append]

/-- The summary row of an episode. -/
def RowShows (names : List String) (row : EpisodeRow) (ep : String × List (LogOp S)) : Prop :=
  row.problem = ep.1 ∧ Shows names row.info ep.2 ∧
    row.steps = (ep.2.flatMap bump).count "sum_successful_actions" + (ep.2.flatMap bump).count "sum_failed_actions"

structure RecInv (names : List String) (r : Recorder S) (cur all : List (LogOp S)) : Prop where
  info : Shows names r.info cur
  hist : HistShows names r.history all

theorem dict_zero_lookup (ks : List String) (k : String) :
    (Py.dictOf (ks.map (·, 0))).lookup k = if k ∈ ks then some 0 else none := by
  have gen : ∀ (ks : List String) (d : List (String × Nat)), ((ks.map (·, 0)).foldl (fun d p => Py.dictSet d p.1 p.2) d).lookup k =
      if k ∈ ks then some 0 else d.lookup k := by
    intro ks
    induction ks with
    | nil => simp
    | cons x ks ih =>
      intro d
      rw [List.map_cons, List.foldl_cons, ih, Py.lookup_dictSet]
      by_cases h1 : k ∈ ks
      · simp [h1]
      · by_cases h2 : k = x <;> simp [h1, h2]
  simpa [Py.dictOf] using gen ks []

theorem RecInv.init (names : List String) : RecInv names (Recorder.init names : Recorder S) [] [] := by
  constructor
  · intro k; simp only [Recorder.init]; rw [dict_zero_lookup]; simp
  · intro a
    simp only [Recorder.init]
    have : (names.map fun a => (successKey a, 0)) = (names.map successKey).map (·, 0) := by simp
    rw [this, dict_zero_lookup]
    have : successKey a ∈ names.map successKey ↔ a ∈ names := by
      rw [List.mem_map]
      constructor
      · rintro ⟨b, hb, e⟩; rw [← successKey_inj e]; exact hb
      · intro h; exact ⟨a, h, rfl⟩
    simp only [this, stepsOf, List.countP_nil]

/-- A call other than the end of an episode. -/
theorem RecInv.step {names : List String} {r : Recorder S} {cur all : List (LogOp S)} (inv : RecInv names r cur all) (max : Nat)
    {o : LogOp S} (hk : Known names o) (hne : ∀ p e, o ≠ .endEpisode p e) :
    ∃ r', r.step max o = (r', none) ∧ RecInv names r' (cur ++ [o]) (all ++ [o]) ∧ r'.rows = r.rows ∧ r'.number = r.number ∧
      r'.trajectory = sinceClear r.trajectory [o] ∧ r'.files = r.files := by
  cases o with
  | endEpisode p e => exact absurd rfl (hne p e)
  | clearTrajectory =>
    refine ⟨_, rfl, ⟨?_, ?_⟩, rfl, rfl, rfl, rfl⟩
    · rw [shows_snoc]; simp only [bump, List.append_nil]; exact inv.info
    · intro a; rw [stepsOf_snoc]; simpa [stepsOf] using inv.hist a
  | clearPaths =>
    refine ⟨_, rfl, ⟨?_, ?_⟩, rfl, rfl, rfl, rfl⟩
    · rw [shows_snoc]; simp only [bump, List.append_nil]; exact inv.info
    · intro a; rw [stepsOf_snoc]; simpa [stepsOf] using inv.hist a
  | reason a why =>
    obtain ⟨d, h1, h2⟩ := incr_count inv.info (mem_infoKeys_reason hk why)
    refine ⟨{ r with info := d }, ?_, ⟨?_, ?_⟩, rfl, rfl, rfl, rfl⟩
    · simp only [Recorder.step, Recorder.recordReason, h1]
    · rw [shows_snoc]; exact h2
    · intro a; rw [stepsOf_snoc]; simpa [stepsOf] using inv.hist a
  | step s =>
    have hk : s.action ∈ names := hk
    cases hok : s.ok with
    | true =>
      obtain ⟨d, h1, h2⟩ := incr_count inv.info (mem_infoKeys_success hk)
      obtain ⟨d2, h3, h4⟩ := incr_count h2 (mem_infoKeys_sumS names)
      obtain ⟨h', h5⟩ := incr_ok (k := successKey s.action) (d := r.history) (by rw [inv.hist, if_pos hk])
      refine ⟨{ r with trajectory := r.trajectory ++ [s], info := d2, history := h' }, ?_, ⟨?_, ?_⟩, rfl, rfl, rfl, rfl⟩
      · simp only [Recorder.step, Recorder.recordStep, hok, if_true, h1, h3, h5]
      · rw [shows_snoc]
        intro k'
        rw [show d2.lookup k' = _ from h4 k']
        simp [bump, hok]
      · intro a
        rw [stepsOf_snoc]
        dsimp only
        rw [lookup_incr h5]
        by_cases ha : a = s.action
        · subst ha
          rw [if_pos rfl, inv.hist, if_pos hk, if_pos hk]
          simp [stepsOf, hok]
        · rw [if_neg (fun e => ha (successKey_inj e)), inv.hist]
          simp [stepsOf, Ne.symm ha]
    | false =>
      obtain ⟨d, h1, h2⟩ := incr_count inv.info (mem_infoKeys_fail hk)
      obtain ⟨d2, h3, h4⟩ := incr_count h2 (mem_infoKeys_sumF names)
      refine ⟨{ r with trajectory := r.trajectory ++ [s], info := d2 }, ?_, ⟨?_, ?_⟩, rfl, rfl, rfl, rfl⟩
      · simp only [Recorder.step, Recorder.recordStep, hok, Bool.false_eq_true, if_false, h1, h3]
      · rw [shows_snoc]
        intro k'
        rw [show d2.lookup k' = _ from h4 k']
        simp [bump, hok]
      · intro a
        rw [stepsOf_snoc]
        dsimp only
        rw [inv.hist]
        simp [stepsOf, hok]

theorem lookup_zero (d : List (String × Nat)) (k : String) :
    (d.map fun p => (p.1, 0)).lookup k = (d.lookup k).map fun _ => 0 := by
  induction d with
  | nil => rfl
  | cons p d ih =>
    obtain ⟨a, b⟩ := p
    simp only [List.map_cons, List.lookup_cons]
    cases k == a
    · simpa using ih
    · rfl

theorem RecInv.endEpisode {names : List String} {r : Recorder S} {cur all : List (LogOp S)} (inv : RecInv names r cur all) (max : Nat)
    (p : String) (e : Bool) :
    ∃ r' row, r.step max (.endEpisode p e) = (r', none) ∧ RecInv names r' [] (all ++ [.endEpisode p e]) ∧ r'.rows = r.rows ++ [row] ∧
      row.number = r.number ∧ RowShows names row (p, cur) ∧ r'.number = r.number + 1 ∧ r'.trajectory = r.trajectory ∧
      (e = false → r'.files = r.files) := by
  have hS := inv.info "sum_successful_actions"
  have hF := inv.info "sum_failed_actions"
  rw [if_pos (mem_infoKeys_sumS names)] at hS
  rw [if_pos (mem_infoKeys_sumF names)] at hF
  simp only [Recorder.step, Recorder.endEpisode, hS, hF]
  have h0 : Shows names (r.info.map fun p => (p.1, 0)) ([] : List (LogOp S)) := by
    intro k
    rw [lookup_zero, inv.info]
    split <;> simp
  have hh : HistShows names r.history (all ++ [LogOp.endEpisode p e]) := by
    intro a; rw [stepsOf_snoc]; simpa [stepsOf] using inv.hist a
  cases e with
  | true => exact ⟨_, _, rfl, ⟨h0, hh⟩, rfl, rfl, ⟨rfl, inv.info, rfl⟩, rfl, rfl, by simp⟩
  | false => exact ⟨_, _, rfl, ⟨h0, hh⟩, rfl, rfl, ⟨rfl, inv.info, rfl⟩, rfl, rfl, fun _ => rfl⟩

theorem recRun {names : List String} (max : Nat) (os : List (LogOp S)) {r : Recorder S} {cur all : List (LogOp S)}
    (inv : RecInv names r cur all) (hk : ∀ o ∈ os, Known names o) :
    (∀ e ∈ (r.run max os).2, e = none) ∧ RecInv names (r.run max os).1 (current cur os) (all ++ os) ∧
    (r.run max os).1.trajectory = sinceClear r.trajectory os ∧
    (r.run max os).1.number = r.number + (episodes cur os).length ∧
    ∃ rows, (r.run max os).1.rows = r.rows ++ rows ∧ List.Forall₂ (RowShows names) rows (episodes cur os) ∧
      rows.map (·.number) = List.range' r.number (episodes cur os).length := by
  induction os generalizing r cur all with
  | nil => exact ⟨by simp [Recorder.run], by simpa [Recorder.run, current] using inv, rfl, rfl, [], by simp [Recorder.run], .nil, rfl⟩
  | cons o os ih =>
    have hk' : ∀ o ∈ os, Known names o := fun x hx => hk x (List.mem_cons_of_mem _ hx)
    by_cases hend : ∃ p e, o = .endEpisode p e
    · obtain ⟨p, e, rfl⟩ := hend
      obtain ⟨r', row, s1, s2, s3, s4, s5, s6, s7, _⟩ := inv.endEpisode max p e
      obtain ⟨i1, i2, i3, i4, rows, i5, i6, i7⟩ := ih s2 hk'
      have hrun : r.run max (.endEpisode p e :: os) = ((r'.run max os).1, none :: (r'.run max os).2) := by
        simp only [Recorder.run, s1]
      rw [hrun]
      simp only [current, episodes, sinceClear, List.length_cons]
      refine ⟨by simpa using i1, by simpa using i2, by rw [i3, s7], by rw [i4, s6]; omega, row :: rows, ?_, .cons s5 i6, ?_⟩
      · rw [i5, s3]; simp
      · rw [List.map_cons, s4, i7, s6, List.range'_succ]
    · have hne : ∀ p e, o ≠ .endEpisode p e := fun p e h => hend ⟨p, e, h⟩
      obtain ⟨r', s1, s2, s3, s4, s5, _⟩ := inv.step max (hk o List.mem_cons_self) hne
      obtain ⟨i1, i2, i3, i4, rows, i5, i6, i7⟩ := ih s2 hk'
      have hrun : r.run max (o :: os) = ((r'.run max os).1, none :: (r'.run max os).2) := by
        simp only [Recorder.run, s1]
      have hc : current cur (o :: os) = current (cur ++ [o]) os := by
        cases o <;> first | rfl | exact absurd rfl (hne _ _)
      have he : episodes cur (o :: os) = episodes (cur ++ [o]) os := by
        cases o <;> first | rfl | exact absurd rfl (hne _ _)
      have ht : sinceClear r.trajectory (o :: os) = sinceClear (sinceClear r.trajectory [o]) os := by cases o <;> rfl
      rw [hrun, hc, he, ht]
      refine ⟨by simpa using i1, by simpa using i2, by rw [i3, s5], by rw [i4, s4], rows, by rw [i5, s3], i6, by rw [i7, s4]⟩

/-! ### From keys to counts -/

theorem nodup_append_ne {l l' : List String} (h : (l ++ l').Nodup) {x y : String} (hx : x ∈ l) (hy : y ∈ l') : x ≠ y := by
  rw [List.nodup_append] at h
  exact h.2.2 x hx y hy

theorem map_inj_of_nodup {f : String → String} {l : List String} (h : (l.map f).Nodup) {a b : String} (ha : a ∈ l) (hb : b ∈ l)
    (e : f a = f b) : a = b := List.inj_on_of_nodup_map h ha hb e

/-- The keys of different counters differ. -/
structure Distinct (names : List String) : Prop where
  sum : "sum_successful_actions" ≠ "sum_failed_actions"
  sumS : ∀ a ∈ names, successKey a ≠ "sum_successful_actions" ∧ failKey a ≠ "sum_successful_actions" ∧
    ∀ r, reasonKey a r ≠ "sum_successful_actions"
  sumF : ∀ a ∈ names, successKey a ≠ "sum_failed_actions" ∧ failKey a ≠ "sum_failed_actions" ∧
    ∀ r, reasonKey a r ≠ "sum_failed_actions"
  sf : ∀ a ∈ names, ∀ b ∈ names, successKey a ≠ failKey b
  sr : ∀ a ∈ names, ∀ b ∈ names, ∀ r, successKey a ≠ reasonKey b r
  fr : ∀ a ∈ names, ∀ b ∈ names, ∀ r, failKey a ≠ reasonKey b r
  ff : ∀ a ∈ names, ∀ b ∈ names, failKey a = failKey b → a = b
  rr : ∀ a ∈ names, ∀ b ∈ names, ∀ r q, reasonKey a r = reasonKey b q → a = b ∧ r = q

theorem distinct_of {names : List String} (h : (infoKeys names).Nodup) : Distinct names := by
  unfold infoKeys at h
  have m : ∀ (f : String → String) {a}, a ∈ names → f a ∈ names.map f := fun f a ha => List.mem_map.mpr ⟨a, ha, rfl⟩
  have hcolS : "sum_successful_actions" ∈ recordColumns := by simp [recordColumns]
  have hcolF : "sum_failed_actions" ∈ recordColumns := by simp [recordColumns]
  have h5 := (List.nodup_append.mp h).1
  have h4 := (List.nodup_append.mp h5).1
  have h3 := (List.nodup_append.mp h4).1
  have h2 := (List.nodup_append.mp h3).1
  have fail_nodup := (List.nodup_append.mp h3).2.1
  have d_nodup := (List.nodup_append.mp h4).2.1
  have n_nodup := (List.nodup_append.mp h5).2.1
  have u_nodup := (List.nodup_append.mp h).2.1
  have inS : ∀ {l : List String}, l ⊆ recordColumns ++ names.map successKey → l ⊆ recordColumns ++ names.map successKey := fun h => h
  have cS := fun a (ha : a ∈ names) => List.mem_append_right recordColumns (m successKey ha)
  refine ⟨by decide, fun a ha => ⟨(nodup_append_ne h2 hcolS (m _ ha)).symm, (nodup_append_ne h3 (by simp [hcolS]) (m _ ha)).symm, ?_⟩,
    fun a ha => ⟨(nodup_append_ne h2 hcolF (m _ ha)).symm, (nodup_append_ne h3 (by simp [hcolF]) (m _ ha)).symm, ?_⟩, ?_, ?_, ?_, ?_, ?_⟩
  · intro r; cases r
    · exact (nodup_append_ne h4 (by simp [hcolS]) (m (reasonKey · .discrete) ha)).symm
    · exact (nodup_append_ne h5 (by simp [hcolS]) (m (reasonKey · .numeric) ha)).symm
    · exact (nodup_append_ne h (by simp [hcolS]) (m (reasonKey · .unknown) ha)).symm
  · intro r; cases r
    · exact (nodup_append_ne h4 (by simp [hcolF]) (m (reasonKey · .discrete) ha)).symm
    · exact (nodup_append_ne h5 (by simp [hcolF]) (m (reasonKey · .numeric) ha)).symm
    · exact (nodup_append_ne h (by simp [hcolF]) (m (reasonKey · .unknown) ha)).symm
  · intro a ha b hb
    exact nodup_append_ne h3 (List.mem_append_right _ (m _ ha)) (m _ hb)
  · intro a ha b hb r
    have c1 : successKey a ∈ recordColumns ++ names.map successKey := List.mem_append_right _ (m _ ha)
    cases r
    · exact nodup_append_ne h4 (List.mem_append_left _ c1) (m (reasonKey · .discrete) hb)
    · exact nodup_append_ne h5 (List.mem_append_left _ (List.mem_append_left _ c1)) (m (reasonKey · .numeric) hb)
    · exact nodup_append_ne h (List.mem_append_left _ (List.mem_append_left _ (List.mem_append_left _ c1))) (m (reasonKey · .unknown) hb)
  · intro a ha b hb r
    have c1 : failKey a ∈ recordColumns ++ names.map successKey ++ names.map failKey := List.mem_append_right _ (m _ ha)
    cases r
    · exact nodup_append_ne h4 c1 (m (reasonKey · .discrete) hb)
    · exact nodup_append_ne h5 (List.mem_append_left _ c1) (m (reasonKey · .numeric) hb)
    · exact nodup_append_ne h (List.mem_append_left _ (List.mem_append_left _ c1)) (m (reasonKey · .unknown) hb)
  · intro a ha b hb e; exact map_inj_of_nodup fail_nodup ha hb e
  · have dn : ∀ a ∈ names, ∀ b ∈ names, reasonKey a .discrete ≠ reasonKey b .numeric := fun a ha b hb =>
      nodup_append_ne h5 (List.mem_append_right _ (m (reasonKey · .discrete) ha)) (m (reasonKey · .numeric) hb)
    have du : ∀ a ∈ names, ∀ b ∈ names, reasonKey a .discrete ≠ reasonKey b .unknown := fun a ha b hb =>
      nodup_append_ne h (List.mem_append_left _ (List.mem_append_right _ (m (reasonKey · .discrete) ha))) (m (reasonKey · .unknown) hb)
    have nu : ∀ a ∈ names, ∀ b ∈ names, reasonKey a .numeric ≠ reasonKey b .unknown := fun a ha b hb =>
      nodup_append_ne h (List.mem_append_right _ (m (reasonKey · .numeric) ha)) (m (reasonKey · .unknown) hb)
    intro a ha b hb r q e
    cases r <;> cases q
    · exact ⟨map_inj_of_nodup d_nodup ha hb e, rfl⟩
    · exact absurd e (dn a ha b hb)
    · exact absurd e (du a ha b hb)
    · exact absurd e.symm (dn b hb a ha)
    · exact ⟨map_inj_of_nodup n_nodup ha hb e, rfl⟩
    · exact absurd e (nu a ha b hb)
    · exact absurd e.symm (du b hb a ha)
    · exact absurd e.symm (nu b hb a ha)
    · exact ⟨map_inj_of_nodup u_nodup ha hb e, rfl⟩

theorem count_bumps {names : List String} (hd : Distinct names) (l : List (LogOp S)) (hk : ∀ o ∈ l, Known names o) :
    (∀ a ∈ names, (l.flatMap bump).count (successKey a) = stepsOf a true l ∧ (l.flatMap bump).count (failKey a) = stepsOf a false l ∧
      ∀ r, (l.flatMap bump).count (reasonKey a r) = reasonsOf a r l) ∧
    (l.flatMap bump).count "sum_successful_actions" = stepsWith true l ∧ (l.flatMap bump).count "sum_failed_actions" = stepsWith false l := by
  induction l with
  | nil => simp [stepsOf, reasonsOf, stepsWith]
  | cons o l ih =>
    obtain ⟨i1, i2, i3⟩ := ih fun x hx => hk x (List.mem_cons_of_mem _ hx)
    have hko := hk o List.mem_cons_self
    simp only [List.flatMap_cons, List.count_append]
    refine ⟨fun a ha => ?_, ?_, ?_⟩
    · obtain ⟨j1, j2, j3⟩ := i1 a ha
      rw [j1, j2]
      simp only [j3]
      cases o with
      | step s =>
        have hs : s.action ∈ names := hko
        have es : (successKey s.action = successKey a) ↔ s.action = a := ⟨successKey_inj, fun h => by rw [h]⟩
        have ef : (failKey s.action = failKey a) ↔ s.action = a := ⟨hd.ff _ hs _ ha, fun h => by rw [h]⟩
        cases hok : s.ok
        · simp only [bump, hok, Bool.false_eq_true, if_false, List.count_cons, List.count_nil, beq_iff_eq, (hd.sf a ha _ hs).symm,
            ef, (hd.sumF a ha).1.symm, (hd.sumF a ha).2.1.symm, fun r => (hd.sumF a ha).2.2 r |>.symm, hd.fr _ hs a ha]
          refine ⟨?_, ?_, fun r => ?_⟩
          · simp [stepsOf, hok]
          · simp [stepsOf, hok, List.countP_cons, Nat.add_comm]
          · simp [reasonsOf]
        · simp only [bump, hok, if_true, List.count_cons, List.count_nil, beq_iff_eq, hd.sf _ hs a ha,
            es, (hd.sumS a ha).1.symm, (hd.sumS a ha).2.1.symm, fun r => (hd.sumS a ha).2.2 r |>.symm, hd.sr _ hs a ha]
          refine ⟨?_, ?_, fun r => ?_⟩
          · simp [stepsOf, hok, List.countP_cons, Nat.add_comm]
          · simp [stepsOf, hok]
          · simp [reasonsOf]
      | reason b q =>
        have hb : b ∈ names := hko
        have er : ∀ r, (reasonKey b q = reasonKey a r) ↔ b = a ∧ q = r := fun r =>
          ⟨hd.rr _ hb _ ha q r, fun h => by rw [h.1, h.2]⟩
        simp only [bump, List.count_cons, List.count_nil, beq_iff_eq, (hd.sr a ha b hb q).symm, (hd.fr a ha b hb q).symm, er]
        refine ⟨?_, ?_, fun r => ?_⟩
        · simp [stepsOf]
        · simp [stepsOf]
        · simp [reasonsOf, List.countP_cons, Nat.add_comm]
      | _ => simp [bump, stepsOf, reasonsOf]
    · rw [i2]
      cases o with
      | step s =>
        have hs : s.action ∈ names := hko
        cases hok : s.ok
        · simp [bump, hok, (hd.sumS _ hs).2.1, stepsWith]
        · simp [bump, hok, (hd.sumS _ hs).1, stepsWith, Nat.add_comm]
      | reason b q =>
        have hb : b ∈ names := hko
        simp [bump, (hd.sumS _ hb).2.2 q, stepsWith]
      | _ => simp [bump, stepsWith]
    · rw [i3]
      cases o with
      | step s =>
        have hs : s.action ∈ names := hko
        cases hok : s.ok
        · simp [bump, hok, (hd.sumF _ hs).2.1, stepsWith, Nat.add_comm]
        · simp [bump, hok, (hd.sumF _ hs).1, stepsWith]
      | reason b q =>
        have hb : b ∈ names := hko
        simp [bump, (hd.sumF _ hb).2.2 q, stepsWith]
      | _ => simp [bump, stepsWith]

theorem steps_eq (l : List (LogOp S)) : steps l = stepsWith true l + stepsWith false l := by
  induction l with
  | nil => rfl
  | cons o l ih =>
    cases o with
    | step s => cases hok : s.ok <;> simp [steps, stepsWith, hok] at * <;> omega
    | _ => simpa [steps, stepsWith] using ih

theorem slices_flatten {α : Type} (max : Nat) (hm : 0 < max) (n : Nat) (l : List α) (h : l.length ≤ n) :
    (slices max n l).flatten = l ∧ ∀ p ∈ slices max n l, 0 < p.length ∧ p.length ≤ max := by
  induction n generalizing l with
  | zero => cases l <;> simp_all [slices]
  | succ n ih =>
    cases l with
    | nil => simp [slices]
    | cons x l =>
      have hd : ((x :: l).drop max).length ≤ n := by
        rw [List.length_drop]; simp only [List.length_cons] at h ⊢; omega
      obtain ⟨h1, h2⟩ := ih ((x :: l).drop max) hd
      simp only [slices, List.flatten_cons, h1, List.take_append_drop, List.mem_cons, true_and]
      rintro p (rfl | hp)
      · rw [List.length_take]; simp only [List.length_cons]; omega
      · exact h2 p hp

end Model
